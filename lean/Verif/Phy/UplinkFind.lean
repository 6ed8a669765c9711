import Verif.Phy.Uplink
/-!
# Where the burst finder finds a burst
-/
namespace Verif.Phy

/-- In how many bits the window at `p` differs from the sequence. -/
def dist (bits seq : List Bool) (p : Nat) : Nat := hamming (cut bits p seq.length) seq

/-- The sequence, looked for at the positions `o`, `o + 2`, … `o + span`, is at `o + p`: with at most one wrong bit, and nothing
before it looks as much like it, and nothing after it more. -/
structure Spot (bits seq : List Bool) (o span p : Nat) : Prop where
  even : p % 2 = 0
  range : p ≤ span
  near : dist bits seq (o + p) ≤ 1
  before : ∀ q, q % 2 = 0 → q < p → dist bits seq (o + p) < dist bits seq (o + q)
  after : ∀ q, q % 2 = 0 → p < q → q ≤ span → dist bits seq (o + p) ≤ dist bits seq (o + q)

/-- Nothing looks like the sequence. -/
def NoSpot (bits seq : List Bool) (o span : Nat) : Prop := ∀ q, q % 2 = 0 → q ≤ span → 1 < dist bits seq (o + q)

theorem foldl_above (w seq : List Bool) (k : Nat) : ∀ (l : List Nat) (b : Nat × Nat), k < b.2 →
    (∀ p ∈ l, k < hamming ((w.drop p).take seq.length) seq) → k < (l.foldl (findStep w seq) b).2
  | [], b, hb, _ => hb
  | p :: l, b, hb, h => by
    rw [List.foldl_cons]
    refine foldl_above w seq k l _ ?_ (fun p hp => h p (List.mem_cons_of_mem _ hp))
    unfold findStep
    simp only
    split
    · exact h p List.mem_cons_self
    · exact hb

theorem foldl_keep (w seq : List Bool) : ∀ (l : List Nat) (b : Nat × Nat),
    (∀ p ∈ l, b.2 ≤ hamming ((w.drop p).take seq.length) seq) → l.foldl (findStep w seq) b = b
  | [], b, _ => rfl
  | p :: l, b, h => by
    have := h p List.mem_cons_self
    rw [List.foldl_cons, show findStep w seq b p = b by unfold findStep; simp only; rw [if_neg (by omega)]]
    exact foldl_keep w seq l b (fun p hp => h p (List.mem_cons_of_mem _ hp))

theorem mem_even {len n p : Nat} : p ∈ evenPositions len n ↔ p % 2 = 0 ∧ p / 2 ≤ (len - n) / 2 := by
  unfold evenPositions
  simp only [List.mem_map, List.mem_range]
  constructor
  · rintro ⟨k, hk, rfl⟩; omega
  · rintro ⟨h1, h2⟩; exact ⟨p / 2, by omega, by omega⟩

theorem even_split {len n p : Nat} (h : p ∈ evenPositions len n) : ∃ l r, evenPositions len n = l ++ p :: r ∧
    (∀ q ∈ l, q % 2 = 0 ∧ q < p) ∧ ∀ q ∈ r, q % 2 = 0 ∧ p < q ∧ q / 2 ≤ (len - n) / 2 := by
  obtain ⟨h1, h2⟩ := mem_even.1 h
  refine ⟨(List.range (p / 2)).map (2 * ·), (List.range' (p / 2 + 1) ((len - n) / 2 - p / 2)).map (2 * ·), ?_, ?_, ?_⟩
  · unfold evenPositions
    have e : List.range ((len - n) / 2 + 1) = List.range (p / 2) ++ (p / 2) :: List.range' (p / 2 + 1) ((len - n) / 2 - p / 2) := by
      have := List.range'_append (s := 0) (m := p / 2) (n := (len - n) / 2 - p / 2 + 1) (step := 1)
      rw [List.range_eq_range', List.range_eq_range', ← List.range'_succ]
      rw [show (len - n) / 2 + 1 = p / 2 + ((len - n) / 2 - p / 2 + 1) by omega, ← this]
      simp
    rw [e, List.map_append, List.map_cons]
    congr 2; omega
  · intro q hq
    simp only [List.mem_map, List.mem_range] at hq
    obtain ⟨k, hk, rfl⟩ := hq; omega
  · intro q hq
    simp only [List.mem_map, List.mem_range'_1] at hq
    obtain ⟨k, hk, rfl⟩ := hq; omega

variable {bits seq : List Bool} {o len : Nat}

theorem window_cut {q : Nat} (hq : q ≤ bits.length - len) :
    (((bits.drop o).take (bits.length - len + seq.length)).drop q).take seq.length = cut bits (o + q) seq.length := by
  unfold cut
  rw [List.drop_take, List.take_take, List.drop_drop]
  congr 1
  omega

/-- A burst at its place is found there. -/
theorem check_spot (hl : len ≤ bits.length) (h : o + (bits.length - len) + seq.length ≤ bits.length) (h2 : 1 < seq.length) {p : Nat}
    (S : Spot bits seq o (bits.length - len) p) : checkSequence bits o len seq 1 = .ok (some p) := by
  unfold checkSequence
  rw [if_neg (by omega)]
  have hw : ((bits.drop o).take (bits.length - len + seq.length)).length = bits.length - len + seq.length := by
    simp only [List.length_take, List.length_drop]; omega
  have hp : p ∈ evenPositions (bits.length - len + seq.length) seq.length := mem_even.2 ⟨S.even, by have := S.range; omega⟩
  obtain ⟨l, r, e, hl1, hr1⟩ := even_split hp
  have hd : ∀ q, q ≤ bits.length - len → hamming ((((bits.drop o).take (bits.length - len + seq.length)).drop q).take seq.length) seq =
      dist bits seq (o + q) := fun q hq => by rw [window_cut hq]; rfl
  have hf : findSequence ((bits.drop o).take (bits.length - len + seq.length)) seq = (p, dist bits seq (o + p)) := by
    unfold findSequence
    rw [if_neg (by omega), hw, e, List.foldl_append, List.foldl_cons]
    have h1 := foldl_above ((bits.drop o).take (bits.length - len + seq.length)) seq (dist bits seq (o + p)) l (0, seq.length)
      (by have := S.near; simp only; omega) (fun q hq => by
        have := hl1 q hq
        rw [hd q (by have := S.range; omega)]
        exact S.before q this.1 this.2)
    rw [show findStep ((bits.drop o).take (bits.length - len + seq.length)) seq
        (l.foldl (findStep ((bits.drop o).take (bits.length - len + seq.length)) seq) (0, seq.length)) p = (p, dist bits seq (o + p)) by
      generalize l.foldl (findStep ((bits.drop o).take (bits.length - len + seq.length)) seq) (0, seq.length) = b at h1
      unfold findStep
      simp only
      rw [hd p S.range, if_pos h1]]
    refine foldl_keep _ _ r _ (fun q hq => ?_)
    have := hr1 q hq
    rw [hd q (by omega)]
    exact S.after q this.1 this.2.1 (by omega)
  simp only [hf]
  rw [if_pos S.near]

/-- Where nothing looks like it, nothing is found. -/
theorem check_none (hl : len ≤ bits.length) (h : o + (bits.length - len) + seq.length ≤ bits.length) (h2 : 1 < seq.length)
    (heven : (bits.length - len) % 2 = 0) (S : NoSpot bits seq o (bits.length - len)) : checkSequence bits o len seq 1 = .ok none := by
  unfold checkSequence
  rw [if_neg (by omega)]
  have hw : ((bits.drop o).take (bits.length - len + seq.length)).length = bits.length - len + seq.length := by
    simp only [List.length_take, List.length_drop]; omega
  have hf : 1 < (findSequence ((bits.drop o).take (bits.length - len + seq.length)) seq).2 := by
    unfold findSequence
    rw [if_neg (by omega), hw]
    refine foldl_above _ seq 1 _ _ h2 (fun q hq => ?_)
    have := mem_even.1 hq
    rw [window_cut (by omega)]
    exact S q this.1 (by omega)
  simp only
  rw [if_neg (by omega)]

/-- Whatever is found is one of the positions looked at. -/
theorem check_total (hl : len ≤ bits.length) (h : o + (bits.length - len) + seq.length ≤ bits.length) :
    ∃ r, checkSequence bits o len seq 1 = .ok r ∧ ∀ p, r = some p → p ≤ bits.length - len := by
  unfold checkSequence
  rw [if_neg (by omega)]
  refine ⟨_, rfl, fun p hp => ?_⟩
  have hw : ((bits.drop o).take (bits.length - len + seq.length)).length = bits.length - len + seq.length := by
    simp only [List.length_take, List.length_drop]; omega
  have key : ∀ (w : List Bool) (l : List Nat) (b : Nat × Nat) (m : Nat), b.1 ≤ m → (∀ p ∈ l, p ≤ m) → (l.foldl (findStep w seq) b).1 ≤ m := by
    intro w l
    induction l with
    | nil => intro b m hb _; exact hb
    | cons p l ih =>
      intro b m hb hm
      rw [List.foldl_cons]
      refine ih _ m ?_ (fun p hp => hm p (List.mem_cons_of_mem _ hp))
      unfold findStep
      simp only
      split
      · exact hm p List.mem_cons_self
      · exact hb
  split at hp
  · cases hp
    unfold findSequence
    rw [if_neg (by omega), hw]
    refine key _ _ _ _ (Nat.zero_le _) (fun q hq => ?_)
    have := mem_even.1 hq
    omega
  · cases hp

/-! ## The three searches in an uplink slot -/

theorem lenN : seqN.length = 22 := by decide
theorem lenP : seqP.length = 22 := by decide
theorem lenX : seqX.length = 30 := by decide

/-- A burst of full slot signalling or voice. -/
theorem full_norm1 {rx : List Bool} (hl : rx.length = 510) {p : Nat} (S : Spot rx seqN 220 48 p) :
    findUlFull rx = .ok (some ⟨.norm1, cut rx p 462⟩) := by
  unfold findUlFull
  rw [check_spot (bits := rx) (seq := seqN) (o := 220) (len := 462) (by omega) (by rw [lenN]; omega) (by decide) (by rw [hl]; exact S)]
  rfl

/-- A burst of two halves. -/
theorem full_norm2 {rx : List Bool} (hl : rx.length = 510) {p : Nat} (N : NoSpot rx seqN 220 48) (S : Spot rx seqP 220 48 p) :
    findUlFull rx = .ok (some ⟨.norm2, cut rx p 462⟩) := by
  unfold findUlFull
  rw [check_none (bits := rx) (seq := seqN) (o := 220) (len := 462) (by omega) (by rw [lenN]; omega) (by decide) (by rw [hl]) (by rw [hl]; exact N),
    check_spot (bits := rx) (seq := seqP) (o := 220) (len := 462) (by omega) (by rw [lenP]; omega) (by decide) (by rw [hl]; exact S)]
  rfl

theorem full_none {rx : List Bool} (hl : rx.length = 510) (N : NoSpot rx seqN 220 48) (P : NoSpot rx seqP 220 48) : findUlFull rx = .ok none := by
  unfold findUlFull
  rw [check_none (bits := rx) (seq := seqN) (o := 220) (len := 462) (by omega) (by rw [lenN]; omega) (by decide) (by rw [hl]) (by rw [hl]; exact N),
    check_none (bits := rx) (seq := seqP) (o := 220) (len := 462) (by omega) (by rw [lenP]; omega) (by decide) (by rw [hl]) (by rw [hl]; exact P)]
  rfl

/-- A control burst. -/
theorem sub_ext {rx : List Bool} (hl : rx.length = 254) {p : Nat} (S : Spot rx seqX 88 48 p) :
    findUlSub rx = .ok (some ⟨.ext, cut rx p 206⟩) := by
  unfold findUlSub
  rw [check_spot (bits := rx) (seq := seqX) (o := 88) (len := 206) (by omega) (by rw [lenX]; omega) (by decide) (by rw [hl]; exact S)]
  rfl

theorem sub_none {rx : List Bool} (hl : rx.length = 254) (N : NoSpot rx seqX 88 48) : findUlSub rx = .ok none := by
  unfold findUlSub
  rw [check_none (bits := rx) (seq := seqX) (o := 88) (len := 206) (by omega) (by rw [lenX]; omega) (by decide) (by rw [hl]) (by rw [hl]; exact N)]
  rfl

/-- The bursts which can be found in a whole slot. -/
inductive FullBurst (rx : List Bool) : Option RxBurst → Prop where
  | none : FullBurst rx none
  | some (t : Train) (p : Nat) : t = .norm1 ∨ t = .norm2 → p ≤ 48 → FullBurst rx (some ⟨t, cut rx p 462⟩)

theorem full_total {rx : List Bool} (hl : rx.length = 510) : ∃ r, findUlFull rx = .ok r ∧ FullBurst rx r := by
  obtain ⟨r1, e1, h1⟩ := check_total (bits := rx) (seq := seqN) (o := 220) (len := 462) (by omega) (by rw [lenN]; omega)
  obtain ⟨r2, e2, h2⟩ := check_total (bits := rx) (seq := seqP) (o := 220) (len := 462) (by omega) (by rw [lenP]; omega)
  unfold findUlFull
  rw [e1]
  cases r1 with
  | some p => exact ⟨_, rfl, .some _ p (.inl rfl) (by have := h1 p rfl; omega)⟩
  | none =>
    simp only [Res.bind_ok]
    rw [e2]
    cases r2 with
    | some p => exact ⟨_, rfl, .some _ p (.inr rfl) (by have := h2 p rfl; omega)⟩
    | none => exact ⟨_, rfl, .none⟩

/-- The bursts which can be found in half a slot. -/
inductive SubBurst (rx : List Bool) : Option RxBurst → Prop where
  | none : SubBurst rx none
  | some (p : Nat) : p ≤ 48 → SubBurst rx (some ⟨.ext, cut rx p 206⟩)

theorem sub_total {rx : List Bool} (hl : rx.length = 254) : ∃ r, findUlSub rx = .ok r ∧ SubBurst rx r := by
  obtain ⟨r1, e1, h1⟩ := check_total (bits := rx) (seq := seqX) (o := 88) (len := 206) (by omega) (by rw [lenX]; omega)
  unfold findUlSub
  rw [e1]
  cases r1 with
  | some p => exact ⟨_, rfl, .some p (by have := h1 p rfl; omega)⟩
  | none => exact ⟨_, rfl, .none⟩

end Verif.Phy
