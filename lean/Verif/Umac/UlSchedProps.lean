import Verif.Umac.UlSched
/-!
# C21, C22 — uplink capacity

Time is counted in slots from an arbitrary origin: slot `n : Int` is the one whose TDMA time is `fromInt n`.
-/
namespace Verif.Umac
open Verif.Tdma

/-! ## Specification -/

/-- Slot `n` carries common linearization: frame 18, rotating with the multiframe. -/
def isClch (n : Int) : Bool := n / 4 % 18 == 17 && n % 4 == 3 - (n / 72 % 60 + 2) % 4

/-- Slot `n` is an opportunity to transmit on timeslot `t`. -/
def isOpp (t : Nat) (n : Int) : Bool := n % 4 + 1 == t && !isClch n

/-- Number of opportunities among the `k` slots from `n` on. -/
def oppsIn (t : Nat) (n : Int) : Nat → Nat
  | 0 => 0
  | k + 1 => oppsIn t n k + if isOpp t (n + k) then 1 else 0

/-- What a granting delay tells the station, as the number of opportunities to let pass. -/
def GrantDelay.opps : GrantDelay → Nat
  | .nextOpportunity => 0
  | .delay n => n
  | .inFrame18 => 0
  | .waitForAnother => 0

/-- The number of whole slots meant by a capacity allocation code (EN 300 392-2, 21.5.6); 0 and 15 mean the
first and the second half of one slot. -/
def capSlots : Nat → Nat
  | 7 => 8 | 8 => 10 | 9 => 13 | 10 => 17 | 11 => 24 | 12 => 34 | 13 => 51 | 14 => 68
  | 0 => 1 | 15 => 1
  | n => n

/-- A grant given to station `ssi` on timeslot `t` at time `at_`. -/
structure Given where
  at_ : Int
  t : Nat
  ssi : Nat
  grant : SlotGrant

/-- Slot `x` is one of the `k` opportunities on timeslot `t` which follow the first `d` opportunities from
slot `n` on. -/
def inRun (t : Nat) (n : Int) (d k : Nat) (x : Int) : Prop :=
  n ≤ x ∧ isOpp t x = true ∧ d ≤ oppsIn t n (x - n).toNat ∧ oppsIn t n (x - n).toNat < d + k

/-- The half slots which a grant gives to the station: the station lets the announced number of opportunities
pass and then uses the announced number of them; of a half slot only the announced half. `second` tells the
halves apart. -/
def Given.covers (g : Given) (x : Int) (second : Bool) : Prop :=
  inRun g.t g.at_ g.grant.delay.opps (capSlots g.grant.capAlloc) x ∧
  (g.grant.capAlloc = 0 → second = false) ∧ (g.grant.capAlloc = 15 → second = true)

/-- The clock after a history which started at `n`. -/
def ulClock (n : Int) : List (UlEv × Option SlotGrant) → Int
  | [] => n
  | (.tick, _) :: tr => ulClock (n + 1) tr
  | _ :: tr => ulClock n tr

/-- The grants given in a history which started at `n`. -/
def given (n : Int) : List (UlEv × Option SlotGrant) → List Given
  | [] => []
  | (.tick, _) :: tr => given (n + 1) tr
  | (.req t ssi _, some g) :: tr => ⟨n, t, ssi, g⟩ :: given n tr
  | (.req _ _ _, none) :: tr => given n tr

/-! ## Arithmetic of slots -/

theorem fromInt_add (n k : Int) (h1 : -1000000 ≤ k) (h2 : k ≤ 1000000) :
    (fromInt n).addTimeslots k = .ok (fromInt (n + k)) := by
  rw [addTimeslots_ok (fromInt_valid n) (by omega) (by omega), toInt_fromInt]
  congr 1
  unfold fromInt wrap
  simp only [Time.mk.injEq]
  refine ⟨?_, ?_, ?_, ?_⟩ <;> congr 1 <;> omega

theorem fromInt_t (n : Int) : (fromInt n).t = (n % 4 + 1).toNat := rfl

/-- The position of a slot in the table. -/
def pos (n : Int) : Fin 18 := ⟨(n / 4 % 18).toNat, by omega⟩

theorem schedIndex_fromInt (n : Int) : schedIndex (fromInt n) = .ok (pos n) := by
  unfold schedIndex fromInt pos
  simp only
  rw [if_neg (by omega)]
  congr 1
  apply Fin.ext
  simp only
  omega

/-- The timeslot of a slot. -/
def slot (n : Int) : Fin 4 := ⟨(n % 4).toNat, by omega⟩

theorem idx_fromInt (n : Int) : Slots.idx (fromInt n).t = .ok (slot n) := by
  rw [Slots.idx_ok, fromInt_t]
  simp only [slot]; omega

theorem clch_fromInt (n : Int) : (fromInt n).isMandatoryClch = isClch n := by
  unfold Time.isMandatoryClch isClch fromInt
  simp only
  rw [Bool.eq_iff_iff]
  simp only [Bool.and_eq_true, beq_iff_eq]
  constructor <;> intro ⟨h1, h2⟩ <;> refine ⟨by omega, by omega⟩

/-- Two slots less than 18 frames apart at the same place of the table are the same slot. -/
theorem pos_inj {x y : Int} (h1 : slot x = slot y) (h2 : pos x = pos y) (h : x - y < 72) (h' : y - x < 72) : x = y := by
  simp only [slot, Fin.mk.injEq] at h1
  simp only [pos, Fin.mk.injEq] at h2
  omega

/-! ## Counting opportunities -/

theorem isOpp_mod {t : Nat} {x : Int} (h : isOpp t x = true) : x % 4 + 1 = t := by
  unfold isOpp at h; simp at h; exact h.1

theorem isOpp_false {t : Nat} {x : Int} (h : x % 4 + 1 ≠ t) : isOpp t x = false := by
  unfold isOpp; simp [h]

theorem oppsIn_mono (t : Nat) (n : Int) {k l : Nat} (h : k ≤ l) : oppsIn t n k ≤ oppsIn t n l := by
  induction h with
  | refl => omega
  | step h ih => simp only [oppsIn]; omega

/-- The distance to the next slot with number `t`. -/
def toSlot (n : Int) (t : Nat) : Nat := (((t : Int) - 1 - n) % 4).toNat

theorem toSlot_spec (n : Int) (t : Nat) (h1 : 1 ≤ t) (h2 : t ≤ 4) :
    toSlot n t < 4 ∧ (n + toSlot n t) % 4 + 1 = t := by
  unfold toSlot
  omega

theorem oppsIn_lead (n : Int) (t : Nat) (h1 : 1 ≤ t) (h2 : t ≤ 4) (k : Nat) (hk : k ≤ toSlot n t) : oppsIn t n k = 0 := by
  have := toSlot_spec n t h1 h2
  induction k with
  | zero => rfl
  | succ k ih =>
    simp only [oppsIn]
    rw [ih (by omega), isOpp_false (by omega)]; rfl

theorem oppsIn_frame (n : Int) (t : Nat) (h1 : 1 ≤ t) (h2 : t ≤ 4) (d : Nat) :
    oppsIn t n (toSlot n t + 4 * (d + 1)) =
      oppsIn t n (toSlot n t + 4 * d) + if isOpp t (n + toSlot n t + 4 * d) then 1 else 0 := by
  have := toSlot_spec n t h1 h2
  rw [show toSlot n t + 4 * (d + 1) = (toSlot n t + 4 * d) + 1 + 1 + 1 + 1 by omega]
  simp only [oppsIn]
  rw [isOpp_false (x := n + ((toSlot n t + 4 * d + 1 + 1 + 1 : Nat) : Int)) (by omega),
    isOpp_false (x := n + ((toSlot n t + 4 * d + 1 + 1 : Nat) : Int)) (by omega),
    isOpp_false (x := n + ((toSlot n t + 4 * d + 1 : Nat) : Int)) (by omega)]
  rw [show n + ((toSlot n t + 4 * d : Nat) : Int) = n + toSlot n t + 4 * d by omega]
  simp

/-- The candidate slots, one per frame. -/
def cand (n : Int) (t : Nat) (d : Nat) : Int := n + toSlot n t + 4 * d

/-- An opportunity not before `n` is a candidate. -/
theorem opp_cand {n x : Int} {t : Nat} (h1 : 1 ≤ t) (h2 : t ≤ 4) (hx : n ≤ x) (h : isOpp t x = true) :
    ∃ d : Nat, x = cand n t d := by
  have a := toSlot_spec n t h1 h2
  have b := isOpp_mod h
  refine ⟨((x - n - toSlot n t) / 4).toNat, ?_⟩
  unfold cand
  omega

/-- Opportunities among the first `d` candidates. -/
def cnt (n : Int) (t : Nat) (d : Nat) : Nat := oppsIn t n (toSlot n t + 4 * d)

theorem cnt_zero (n : Int) (t : Nat) (h1 : 1 ≤ t) (h2 : t ≤ 4) : cnt n t 0 = 0 :=
  oppsIn_lead n t h1 h2 _ (by omega)

theorem cnt_succ (n : Int) (t : Nat) (h1 : 1 ≤ t) (h2 : t ≤ 4) (d : Nat) :
    cnt n t (d + 1) = cnt n t d + if isOpp t (cand n t d) then 1 else 0 := oppsIn_frame n t h1 h2 d

theorem cnt_mono (n : Int) (t : Nat) {c d : Nat} (h : c ≤ d) : cnt n t c ≤ cnt n t d :=
  oppsIn_mono t n (by omega)

theorem cnt_le (n : Int) (t : Nat) (h1 : 1 ≤ t) (h2 : t ≤ 4) (d : Nat) : cnt n t d ≤ d := by
  induction d with
  | zero => rw [cnt_zero n t h1 h2]; omega
  | succ d ih => rw [cnt_succ n t h1 h2]; split <;> omega

theorem oppsIn_cand (n : Int) (t : Nat) (d : Nat) : oppsIn t n (cand n t d - n).toNat = cnt n t d := by
  unfold cnt cand; congr 1; omega

/-! ## The search -/

/-- The entry of the table for a slot. -/
def UlTable.at (u : UlTable) (x : Int) : UlElem := u (slot x) (pos x)

/-- The opportunities among candidates `a, .., a + k - 1`. -/
def oppList (n : Int) (t a k : Nat) : List Int :=
  ((List.range' a k).map (cand n t)).filter (isOpp t)

theorem oppList_succ (n : Int) (t a k : Nat) : oppList n t a (k + 1) =
    oppList n t a k ++ if isOpp t (cand n t (a + k)) then [cand n t (a + k)] else [] := by
  unfold oppList
  rw [List.range'_concat, List.map_append, List.filter_append]
  simp only [Nat.one_mul, List.map_cons, List.map_nil]
  congr 1
  split <;> simp_all

theorem oppList_length (n : Int) (t : Nat) (h1 : 1 ≤ t) (h2 : t ≤ 4) (a k : Nat) :
    cnt n t a + (oppList n t a k).length = cnt n t (a + k) := by
  induction k with
  | zero => simp [oppList]
  | succ k ih =>
    rw [oppList_succ, List.length_append, ← Nat.add_assoc, ih, ← Nat.add_assoc, cnt_succ n t h1 h2]
    split <;> simp

theorem mem_oppList {n : Int} {t a k : Nat} {x : Int} :
    x ∈ oppList n t a k ↔ isOpp t x = true ∧ ∃ d, a ≤ d ∧ d < a + k ∧ x = cand n t d := by
  unfold oppList
  simp only [List.mem_filter, List.mem_map, List.mem_range'_1]
  constructor
  · rintro ⟨⟨d, hd, rfl⟩, h⟩; exact ⟨h, d, hd.1, hd.2, rfl⟩
  · rintro ⟨h, d, ha, hb, rfl⟩; exact ⟨⟨d, ⟨ha, hb⟩, rfl⟩, h⟩

/-- There is no free run of `num` opportunities among the first `d` candidates. -/
def NoRun (u : UlTable) (n : Int) (t num : Nat) (half : Bool) (d : Nat) : Prop :=
  ∀ a k, a + k ≤ d → (∀ x ∈ oppList n t a k, (u.at x).free half = true) → (oppList n t a k).length < num

/-- A run cannot begin before candidate `a`. -/
def Blocked (u : UlTable) (n : Int) (t : Nat) (half : Bool) (a : Nat) : Prop :=
  ∀ c, c + 1 = a → isOpp t (cand n t c) = true ∧ ¬ (u.at (cand n t c)).free half = true

theorem oppList_sub {n : Int} {t a a' k k' : Nat} (h1 : 1 ≤ t) (h2 : t ≤ 4) (h : a ≤ a') (h' : a' + k' ≤ a + k) :
    (oppList n t a' k').length ≤ (oppList n t a k).length := by
  have e1 := oppList_length n t h1 h2 a k
  have e2 := oppList_length n t h1 h2 a' k'
  have := cnt_mono n t h
  have := cnt_mono n t h'
  omega

/-- One more candidate. -/
theorem NoRun.step {u : UlTable} {n : Int} {t num : Nat} {half : Bool} (h1 : 1 ≤ t) (h2 : t ≤ 4) {a k : Nat} (hb : Blocked u n t half a)
    (h : NoRun u n t num half (a + k)) (hl : (oppList n t a (k + 1)).length < num) : NoRun u n t num half (a + k + 1) := by
  intro a' k' hk' hfree
  by_cases hle : a' + k' ≤ a + k
  · exact h a' k' hle hfree
  · by_cases ha : a ≤ a'
    · exact Nat.lt_of_le_of_lt (oppList_sub h1 h2 ha (by omega)) hl
    · have hb' := hb (a - 1) (by omega)
      exact absurd (hfree _ (mem_oppList.2 ⟨hb'.1, a - 1, by omega, by omega, rfl⟩)) hb'.2

theorem NoRun.reset {u : UlTable} {n : Int} {t num : Nat} {half : Bool} (hn : 0 < num) {d : Nat} (h : NoRun u n t num half d)
    (hb : isOpp t (cand n t d) = true ∧ ¬ (u.at (cand n t d)).free half = true) : NoRun u n t num half (d + 1) := by
  intro a' k' hk' hfree
  by_cases hle : a' + k' ≤ d
  · exact h a' k' hle hfree
  · by_cases h0 : k' = 0
    · subst h0; simpa [oppList] using hn
    · exact absurd (hfree _ (mem_oppList.2 ⟨hb.1, d, by omega, by omega, rfl⟩)) hb.2

/-- What the search returns: the opportunities of a run of candidates, all free. -/
def Found (u : UlTable) (n : Int) (t num : Nat) (half : Bool) (r : Option (Nat × List Time)) : Prop :=
  (∀ skips xs, r = some (skips, xs) → ∃ a k, a + k < 17 ∧ skips = cnt n t a ∧
    xs = (oppList n t a (k + 1)).map fromInt ∧ (oppList n t a (k + 1)).length = num ∧
    (∀ x ∈ oppList n t a (k + 1), (u.at x).free half = true) ∧ NoRun u n t num half (a + k) ∧
    isOpp t (cand n t (a + k)) = true) ∧
  (r = none → NoRun u n t num half 17)

theorem cand_t (n : Int) (t : Nat) (h1 : 1 ≤ t) (h2 : t ≤ 4) (d : Nat) : (fromInt (cand n t d)).t = t := by
  have := toSlot_spec n t h1 h2
  rw [fromInt_t]; unfold cand; omega

theorem slot_cand (n : Int) (t : Nat) (h1 : 1 ≤ t) (h2 : t ≤ 4) (d : Nat) : Slots.idx t = .ok (slot (cand n t d)) := by
  have := idx_fromInt (cand n t d)
  rwa [cand_t n t h1 h2] at this

theorem isOpp_cand (n : Int) (t : Nat) (h1 : 1 ≤ t) (h2 : t ≤ 4) (d : Nat) : isOpp t (cand n t d) = !isClch (cand n t d) := by
  have := toSlot_spec n t h1 h2
  unfold isOpp
  have : cand n t d % 4 + 1 = t := by unfold cand; omega
  simp [this]

theorem findLoop_found (u : UlTable) (n : Int) (t num : Nat) (half : Bool) (h1 : 1 ≤ t) (h2 : t ≤ 4) (hn : 0 < num)
    (m a k : Nat) (hm : a + k + m = 17) (hb : Blocked u n t half a) (hno : NoRun u n t num half (a + k)) (hlt : (oppList n t a k).length < num)
    (hfree : ∀ x ∈ oppList n t a k, (u.at x).free half = true) :
    ∃ r, findLoop u t (fromInt (cand n t 0)) num half (List.range' (a + k) m) (cnt n t a) ((oppList n t a k).map fromInt) = .ok r ∧
      Found u n t num half r := by
  induction m generalizing a k with
  | zero => exact ⟨none, rfl, (by intro _ _ h; cases h), fun _ => by rwa [show a + k = 17 by omega] at hno⟩
  | succ m ih =>
    rw [List.range'_succ]
    have hadd : (fromInt (cand n t 0)).addTimeslots (((a + k : Nat) : Int) * 4) = .ok (fromInt (cand n t (a + k))) := by
      rw [fromInt_add _ _ (by omega) (by omega)]
      congr 2
      unfold cand; omega
    rw [findLoop, hadd, Res.bind_ok, cand_t n t h1 h2, cand_t n t h1 h2, if_neg (by simp), clch_fromInt]
    have hopp := isOpp_cand n t h1 h2 (a + k)
    by_cases hc : isClch (cand n t (a + k)) = true
    · rw [if_pos hc]
      have hl : oppList n t a (k + 1) = oppList n t a k := by
        rw [oppList_succ, hopp, hc]; simp
      have := ih a (k + 1) (by omega) hb (hno.step h1 h2 hb (by rw [hl]; exact hlt)) (by rw [hl]; exact hlt) (by rw [hl]; exact hfree)
      rw [hl, ← Nat.add_assoc] at this
      exact this
    · rw [if_neg hc, schedIndex_fromInt, Res.bind_ok, slot_cand n t h1 h2 (a + k), Res.bind_ok]
      simp only [hc, Bool.not_false] at hopp
      have hl : oppList n t a (k + 1) = oppList n t a k ++ [cand n t (a + k)] := by
        rw [oppList_succ, hopp]; simp
      rw [show u (slot (cand n t (a + k))) (pos (cand n t (a + k))) = u.at (cand n t (a + k)) from rfl]
      by_cases hf : (u.at (cand n t (a + k))).free half = true
      · rw [if_pos hf]
        have hfree' : ∀ x ∈ oppList n t a (k + 1), (u.at x).free half = true := by
          intro x hx
          rw [hl, List.mem_append] at hx
          rcases hx with hx | hx
          · exact hfree x hx
          · simp only [List.mem_singleton] at hx; subst hx; exact hf
        by_cases he : ((oppList n t a k).map fromInt).length + 1 = num
        · rw [if_pos he]
          refine ⟨_, rfl, ?_, by simp⟩
          intro skips xs e
          simp only [Option.some.injEq, Prod.mk.injEq] at e
          refine ⟨a, k, by omega, e.1.symm, ?_, ?_, hfree', hno, hopp⟩
          · rw [← e.2, hl]; simp
          · rw [hl]; simpa using he
        · rw [if_neg he]
          have hlt' : (oppList n t a (k + 1)).length < num := by rw [hl]; simp at he ⊢; omega
          have := ih a (k + 1) (by omega) hb (hno.step h1 h2 hb hlt') hlt' hfree'
          rw [hl, ← Nat.add_assoc] at this
          simpa using this
      · rw [if_neg hf, if_neg (by omega)]
        have hc2 : cnt n t a + ((oppList n t a k).map fromInt).length + 1 = cnt n t (a + k + 1) := by
          rw [cnt_succ n t h1 h2, hopp, ← oppList_length n t h1 h2]; simp
        rw [hc2]
        have := ih (a + k + 1) 0 (by omega) (by intro c hc; rw [show c = a + k by omega]; exact ⟨hopp, hf⟩)
          (hno.reset hn ⟨hopp, hf⟩) (by simpa [oppList] using hn) (by simp [oppList])
        simpa [oppList] using this

theorem forward_fromInt (n : Int) (t : Nat) (h1 : 1 ≤ t) (h2 : t ≤ 4) :
    (fromInt n).forwardToTimeslot t = .ok (fromInt (cand n t 0)) := by
  have := toSlot_spec n t h1 h2
  unfold Time.forwardToTimeslot
  have ht := fromInt_t n
  rw [fromInt_add _ _ (by omega) (by omega)]
  congr 2
  unfold cand
  rw [ht]
  omega

theorem findGrant_found (u : UlTable) (n : Int) (t num : Nat) (half : Bool) (h1 : 1 ≤ t) (h2 : t ≤ 4) (hn : 0 < num)
    (hh : half = true → num = 1) :
    ∃ r, findGrant u (fromInt n) t num half = .ok r ∧ Found u n t num half r := by
  unfold findGrant
  rw [forward_fromInt n t h1 h2, Res.bind_ok, if_neg (by rintro ⟨a, b⟩; exact b (hh a))]
  have := findLoop_found u n t num half h1 h2 hn 17 0 0 (by omega) (by intro c hc; omega)
    (by intro a' k' hk' _; rw [show k' = 0 by omega]; simpa [oppList] using hn) (by simpa [oppList] using hn) (by simp [oppList])
  rw [cnt_zero n t h1 h2] at this
  simpa [oppList, List.range_eq_range'] using this

/-! ## Reserving -/

theorem at_put (u : UlTable) (x y : Int) (e : UlElem) (h : x - y < 72) (h' : y - x < 72) :
    (u.put (slot x) (pos x) e).at y = if y = x then e else u.at y := by
  unfold UlTable.put UlTable.at Slots.upd
  by_cases h : y = x
  · subst h; simp
  · rw [if_neg h]
    by_cases hs : slot y = slot x
    · rw [if_pos hs, if_neg, hs]
      intro hp
      exact h (pos_inj hs hp (by omega) (by omega))
    · rw [if_neg hs]

/-- Entries of the slots from `lo` on for 18 frames. -/
def window (lo : Int) (x : Int) : Prop := lo ≤ x ∧ x < lo + 72

theorem reserveHalf_spec (u : UlTable) (ssi : Nat) (x lo : Int) (hx : window lo x) (h2 : (u.at x).ul2.isSome = true → (u.at x).ul1.isSome = true)
    (hf : (u.at x).free true = true) :
    ∃ u' b, reserveHalf u ssi (fromInt x) = .ok (u', b) ∧
      ((b = 1 ∧ (u.at x).ul1 = none ∧ (u.at x).ul2 = none ∧
        ∀ y, window lo y → u'.at y = if y = x then ⟨some ssi, none⟩ else u.at y) ∨
       (b = 2 ∧ (u.at x).ul1.isSome = true ∧ (u.at x).ul2 = none ∧
        ∀ y, window lo y → u'.at y = if y = x then ⟨(u.at x).ul1, some ssi⟩ else u.at y)) := by
  unfold reserveHalf
  rw [schedIndex_fromInt, Res.bind_ok, idx_fromInt, Res.bind_ok]
  change ∃ u' b, (if (u.at x).ul1.isNone = true then _ else _) = _ ∧ _
  obtain ⟨hx1, hx2⟩ := hx
  cases e1 : (u.at x).ul1 with
  | none =>
    have e2 : (u.at x).ul2 = none := by
      cases e2 : (u.at x).ul2 with
      | none => rfl
      | some s => rw [e1, e2] at h2; simp at h2
    refine ⟨_, _, rfl, .inl ⟨rfl, rfl, e2, ?_⟩⟩
    intro y ⟨hy1, hy2⟩
    rw [at_put _ _ _ _ (by omega) (by omega)]
    split
    · change UlElem.mk (some ssi) (u.at x).ul2 = _
      rw [e2]
    · rfl
  | some s =>
    cases e2 : (u.at x).ul2 with
    | some s2 => simp [UlElem.free, e1, e2] at hf
    | none =>
      simp only [Option.isNone_some, Bool.false_eq_true, if_false]
      change ∃ u' b, (if (u.at x).ul2.isNone = true then _ else _) = _ ∧ _
      rw [e2]
      refine ⟨_, _, rfl, .inr ⟨rfl, by simp, by simp, ?_⟩⟩
      intro y ⟨hy1, hy2⟩
      rw [at_put _ _ _ _ (by omega) (by omega)]
      split
      · change UlElem.mk (u.at x).ul1 (some ssi) = _
        rw [e1]
      · rfl

theorem reserveFull_spec (ssi : Nat) (lo : Int) (xs : List Int) (u : UlTable) (hx : ∀ x ∈ xs, window lo x) (hd : xs.Nodup)
    (hf : ∀ x ∈ xs, (u.at x).free false = true) :
    ∃ u', reserveFull u ssi (xs.map fromInt) = .ok u' ∧
      ∀ y, window lo y → (y ∈ xs → u'.at y = ⟨some ssi, some ssi⟩) ∧ (y ∉ xs → u'.at y = u.at y) := by
  induction xs generalizing u with
  | nil => exact ⟨u, rfl, fun y _ => ⟨by simp, fun _ => rfl⟩⟩
  | cons x xs ih =>
    rw [List.map_cons, reserveFull, schedIndex_fromInt, Res.bind_ok, idx_fromInt, Res.bind_ok]
    have hfx := hf x List.mem_cons_self
    have hfx' : (u.at x).ul1.isNone = true ∧ (u.at x).ul2.isNone = true := by
      simpa [UlElem.free] using hfx
    rw [show u (slot x) (pos x) = u.at x from rfl]
    simp only [hfx', and_self, if_true]
    obtain ⟨hx1, hx2⟩ := hx x List.mem_cons_self
    have hput : ∀ y, window lo y → (u.put (slot x) (pos x) ⟨some ssi, some ssi⟩).at y =
        if y = x then ⟨some ssi, some ssi⟩ else u.at y := by
      intro y ⟨hy1, hy2⟩
      exact at_put _ _ _ _ (by omega) (by omega)
    have hd' := List.nodup_cons.1 hd
    obtain ⟨u', e, h⟩ := ih (u.put (slot x) (pos x) ⟨some ssi, some ssi⟩) (fun y hy => hx y (List.mem_cons_of_mem _ hy)) hd'.2
      (by
        intro y hy
        rw [hput y (hx y (List.mem_cons_of_mem _ hy)), if_neg (by rintro rfl; exact hd'.1 hy)]
        exact hf y (List.mem_cons_of_mem _ hy))
    refine ⟨u', e, fun y hy => ?_⟩
    obtain ⟨ha, hb⟩ := h y hy
    constructor
    · intro hm
      by_cases hyx : y ∈ xs
      · exact ha hyx
      · rw [hb hyx, hput y hy]
        rcases List.mem_cons.1 hm with rfl | h
        · simp
        · exact absurd h hyx
    · intro hm
      rw [List.mem_cons, not_or] at hm
      rw [hb hm.2, hput y hy, if_neg hm.1]

theorem oppList_nodup (n : Int) (t a k : Nat) : (oppList n t a k).Nodup := by
  unfold oppList
  apply List.Pairwise.filter
  rw [List.pairwise_map]
  have := List.nodup_range' (s := a) (n := k)
  refine this.imp ?_
  intro i j h e
  apply h
  unfold cand at e
  omega

/-! ## One request -/

/-- The slots of a run of candidates are exactly those covered. -/
theorem denotes_oppList (n : Int) (t : Nat) (h1 : 1 ≤ t) (h2 : t ≤ 4) (a k num : Nat) (hl : (oppList n t a k).length = num) (x : Int) :
    inRun t n (cnt n t a) num x ↔
      x ∈ oppList n t a k := by
  have hc := oppList_length n t h1 h2 a k
  rw [hl] at hc
  rw [mem_oppList]
  constructor
  · rintro ⟨hx, ho, hlo, hhi⟩
    obtain ⟨d, rfl⟩ := opp_cand h1 h2 hx ho
    rw [oppsIn_cand] at hlo hhi
    have hs := cnt_succ n t h1 h2 d
    rw [ho] at hs
    simp only [if_true] at hs
    refine ⟨ho, d, ?_, ?_, rfl⟩
    · apply Nat.le_of_not_lt
      intro hlt
      have := cnt_mono n t (show d + 1 ≤ a by omega)
      omega
    · apply Nat.lt_of_not_le
      intro hge
      have := cnt_mono n t hge
      omega
  · rintro ⟨ho, d, ha, hb, rfl⟩
    unfold inRun
    rw [oppsIn_cand]
    have hs := cnt_succ n t h1 h2 d
    rw [ho] at hs
    simp only [if_true] at hs
    have m1 := cnt_mono n t ha
    have m2 := cnt_mono n t (show d + 1 ≤ a + k by omega)
    have := toSlot_spec n t h1 h2
    refine ⟨by unfold cand; omega, ho, m1, by omega⟩

theorem oppList_window {n : Int} {t a k : Nat} (h1 : 1 ≤ t) (h2 : t ≤ 4) (hk : a + k ≤ 17) {x : Int} (hx : x ∈ oppList n t a k) :
    n ≤ x ∧ x ≤ n + 67 := by
  rw [mem_oppList] at hx
  obtain ⟨_, d, _, hd, rfl⟩ := hx
  have := toSlot_spec n t h1 h2
  unfold cand; omega

theorem opps_grantDelayOf (s : Nat) (h : s < 256) : (grantDelayOf s).opps = s := by
  unfold grantDelayOf
  split
  · simp [GrantDelay.opps, *]
  · simp only [GrantDelay.opps]; omega

theorem req_table (req : Nat) (h1 : 1 ≤ req) (h2 : req ≤ 14) :
    ∃ n, reqSlots req = .ok n ∧ capAllocOf n = .ok req ∧ capSlots req = n ∧ 0 < n := by
  have h : req = 1 ∨ req = 2 ∨ req = 3 ∨ req = 4 ∨ req = 5 ∨ req = 6 ∨ req = 7 ∨ req = 8 ∨ req = 9 ∨ req = 10 ∨
      req = 11 ∨ req = 12 ∨ req = 13 ∨ req = 14 := by omega
  rcases h with rfl | rfl | rfl | rfl | rfl | rfl | rfl | rfl | rfl | rfl | rfl | rfl | rfl | rfl <;>
    exact ⟨_, rfl, rfl, rfl, by omega⟩


theorem cnt_reach (n : Int) (t : Nat) (h1 : 1 ≤ t) (h2 : t ≤ 4) (d N : Nat) (h : d ≤ cnt n t N) : ∃ a, a ≤ N ∧ cnt n t a = d := by
  induction N with
  | zero => exact ⟨0, by omega, by rw [cnt_zero n t h1 h2] at h ⊢; omega⟩
  | succ N ih =>
    by_cases hd : d ≤ cnt n t N
    · obtain ⟨a, ha, e⟩ := ih hd
      exact ⟨a, by omega, e⟩
    · have := cnt_succ n t h1 h2 N
      refine ⟨N + 1, by omega, ?_⟩
      split at this <;> omega

/-- Without a free run among the first `N` candidates, any run of opportunities there has an occupied one. -/
theorem NoRun.occupied {u : UlTable} {n : Int} {t num : Nat} {half : Bool} (h1 : 1 ≤ t) (h2 : t ≤ 4) {N : Nat}
    (h : NoRun u n t num half N) (d : Nat) (hd : d + num ≤ cnt n t N) :
    ∃ x, inRun t n d num x ∧ n ≤ x ∧ x < n + 4 * N + 4 ∧ (u.at x).free half = false := by
  obtain ⟨b, hb, eb⟩ := cnt_reach n t h1 h2 (d + num) N hd
  obtain ⟨a, ha, ea⟩ := cnt_reach n t h1 h2 d b (by omega)
  have hl : (oppList n t a (b - a)).length = num := by
    have := oppList_length n t h1 h2 a (b - a)
    rw [show a + (b - a) = b by omega] at this
    omega
  have hex : ∃ x ∈ oppList n t a (b - a), (u.at x).free half = false := by
    apply Decidable.byContradiction
    intro hne
    have := h a (b - a) (by omega) (by
      intro x hx
      cases hf : (u.at x).free half with
      | true => rfl
      | false => exact absurd ⟨x, hx, hf⟩ hne)
    omega
  obtain ⟨x, hx, hf⟩ := hex
  have hr := (denotes_oppList n t h1 h2 a (b - a) num hl x).2 hx
  rw [ea] at hr
  refine ⟨x, hr, hr.1, ?_, hf⟩
  rw [mem_oppList] at hx
  obtain ⟨_, c, _, hc, rfl⟩ := hx
  have := toSlot_spec n t h1 h2
  unfold cand; omega

/-- What a granted request does to the table. -/
structure Served (u u' : UlTable) (n : Int) (t ssi req : Nat) (g : SlotGrant) : Prop where
  cap : g.capAlloc = req ∨ req = 0 ∧ g.capAlloc = 15
  delay : ∃ k, k ≤ 16 ∧ g.delay = if k = 0 then GrantDelay.nextOpportunity else GrantDelay.delay k
  near : ∀ x b, Given.covers ⟨n, t, ssi, g⟩ x b → x ≤ n + 67
  some_ : ∃ x b, Given.covers ⟨n, t, ssi, g⟩ x b
  new1 : ∀ x, window (n - 2) x → Given.covers ⟨n, t, ssi, g⟩ x false → (u.at x).ul1 = none ∧ (u'.at x).ul1 = some ssi
  old1 : ∀ x, window (n - 2) x → ¬ Given.covers ⟨n, t, ssi, g⟩ x false → (u'.at x).ul1 = (u.at x).ul1
  new2 : ∀ x, window (n - 2) x → Given.covers ⟨n, t, ssi, g⟩ x true → (u.at x).ul2 = none ∧ (u'.at x).ul2 = some ssi
  old2 : ∀ x, window (n - 2) x → ¬ Given.covers ⟨n, t, ssi, g⟩ x true → (u'.at x).ul2 = (u.at x).ul2
  order : ∀ x, window (n - 2) x → (u'.at x).ul2.isSome = true → (u'.at x).ul1.isSome = true
  earliest : ∀ d, d < g.delay.opps → ∃ x, inRun t n d (capSlots req) x ∧ n ≤ x ∧ x < n + 70 ∧
    (u.at x).free (decide (req = 0)) = false

theorem delay_shape {s : Nat} (h : s ≤ 16) : ∃ k, k ≤ 16 ∧ grantDelayOf s = if k = 0 then GrantDelay.nextOpportunity else GrantDelay.delay k :=
  ⟨s, h, by unfold grantDelayOf; rw [Nat.mod_eq_of_lt (by omega)]⟩

/-- A request is refused, which happens only if no run of free opportunities is long enough, or gives the
station exactly the half slots its grant covers, all of them free before; nothing else changes. -/
theorem processCapReq_spec (u : UlTable) (n : Int) (t ssi req : Nat) (h1 : 1 ≤ t) (h2 : t ≤ 4) (hr : req ≤ 14)
    (hinv : ∀ x, window (n - 2) x → (u.at x).ul2.isSome = true → (u.at x).ul1.isSome = true) :
    ∃ u' g, processCapReq u (fromInt n) t ssi req = .ok (u', g) ∧
      (g = none → u' = u ∧ ∀ d, d + capSlots req ≤ oppsIn t n 68 → ∃ x, inRun t n d (capSlots req) x ∧ n ≤ x ∧ x < n + 70 ∧
        (u.at x).free (decide (req = 0)) = false) ∧
      ∀ g', g = some g' → Served u u' n t ssi req g' := by
  have hnorun : ∀ num half, NoRun u n t num half 17 → ∀ d, d + num ≤ oppsIn t n 68 → ∃ x, inRun t n d num x ∧ n ≤ x ∧ x < n + 70 ∧
        (u.at x).free half = false := by
    intro num half hno d hd
    obtain ⟨x, a1, a2, a3, a4⟩ := hno.occupied h1 h2 d (Nat.le_trans hd (oppsIn_mono t n (by omega)))
    refine ⟨x, a1, a2, ?_, a4⟩
    obtain ⟨c, rfl⟩ := opp_cand h1 h2 a1.1 a1.2.1
    have := a1.2.2.2
    have := toSlot_spec n t h1 h2
    by_cases hc : c < 17
    · unfold cand; omega
    · have h3 : oppsIn t n 68 ≤ oppsIn t n (cand n t c - n).toNat := oppsIn_mono t n (by unfold cand; omega)
      omega
  have hearly : ∀ num half a k, a + k < 17 → NoRun u n t num half (a + k) → (oppList n t a (k + 1)).length = num →
      isOpp t (cand n t (a + k)) = true → ∀ d, d < cnt n t a → ∃ x, inRun t n d num x ∧ n ≤ x ∧ x < n + 70 ∧
        (u.at x).free half = false := by
    intro num half a k hk hno hl ho d hd
    have hc := oppList_length n t h1 h2 a (k + 1)
    have hs := cnt_succ n t h1 h2 (a + k)
    rw [ho, if_pos rfl] at hs
    rw [← Nat.add_assoc] at hc
    obtain ⟨x, a1, a2, a3, a4⟩ := hno.occupied h1 h2 d (by omega)
    exact ⟨x, a1, a2, by omega, a4⟩
  unfold processCapReq
  by_cases h0 : req = 0
  · rw [if_pos h0]
    obtain ⟨r, e, hr, hr2⟩ := findGrant_found u n t 1 true h1 h2 (by omega) (fun _ => rfl)
    rw [e, Res.bind_ok]
    match r, hr, hr2 with
    | none, _, hr2 => exact ⟨u, none, rfl, fun _ => ⟨rfl, by rw [h0]; exact hnorun 1 true (hr2 rfl)⟩, by intro _ h; cases h⟩
    | some (skips, xs), hr, _ =>
      obtain ⟨a, k, hk, hs, rfl, hl, hf, hno, ho⟩ := hr skips xs rfl
      obtain ⟨x, hx⟩ := List.length_eq_one_iff.1 hl
      have hmem : x ∈ oppList n t a (k + 1) := by rw [hx]; exact List.mem_singleton.2 rfl
      have hden := denotes_oppList n t h1 h2 a (k + 1) 1 hl
      have hw := oppList_window h1 h2 (by omega) hmem
      have hwin : window (n - 2) x := ⟨by omega, by omega⟩
      have hsk : skips ≤ 16 := by
        have := cnt_le n t h1 h2 a
        omega
      obtain ⟨u', b, e2, hb⟩ := reserveHalf_spec u ssi x (n - 2) hwin (hinv x hwin) (hf x hmem)
      rw [hx, List.map_cons, List.map_nil, grantHalf, e2, Res.bind_ok]
      have hop := opps_grantDelayOf skips (by omega)
      rw [hs] at hop
      have hcov0 : ∀ y sec, Given.covers ⟨n, t, ssi, ⟨0, grantDelayOf skips⟩⟩ y sec ↔ y = x ∧ sec = false := by
        intro y sec
        have := hden y
        rw [hx, List.mem_singleton] at this
        unfold Given.covers
        simp only [capSlots, hs, hop]
        rw [← this]
        simp only [forall_const, Nat.reduceEqDiff, false_imp_iff, and_true, and_assoc]
      have hcov15 : ∀ y sec, Given.covers ⟨n, t, ssi, ⟨15, grantDelayOf skips⟩⟩ y sec ↔ y = x ∧ sec = true := by
        intro y sec
        have := hden y
        rw [hx, List.mem_singleton] at this
        unfold Given.covers
        simp only [capSlots, hs, hop]
        rw [← this]
        simp only [forall_const, Nat.reduceEqDiff, false_imp_iff, true_and, and_assoc]
      rcases hb with ⟨rfl, f1, f2, hu⟩ | ⟨rfl, f1, f2, hu⟩
      · refine ⟨_, _, rfl, by simp, ?_⟩
        rintro g' ⟨⟩
        simp only [if_true]
        refine ⟨.inl h0.symm, delay_shape hsk, ?_, ⟨x, false, (hcov0 _ _).2 ⟨rfl, rfl⟩⟩, ?_, ?_, ?_, ?_, ?_, ?_⟩
        · intro y sec h; rw [hcov0] at h; omega
        · intro y hy h; rw [hcov0] at h; rw [hu y hy, h.1]; simp [f1]
        · intro y hy h; rw [hcov0] at h; rw [hu y hy, if_neg (by rintro rfl; simp at h)]
        · intro y hy h; rw [hcov0] at h; simp at h
        · intro y hy h; rw [hu y hy]; split
          · subst y; simp [f2]
          · rfl
        · intro y hy; rw [hu y hy]; split
          · simp
          · exact hinv y hy
        · rw [h0, hs, hop]; exact hearly 1 true a k hk hno hl ho
      · refine ⟨_, _, rfl, by simp, ?_⟩
        rintro g' ⟨⟩
        simp only [Nat.reduceEqDiff, if_false]
        refine ⟨.inr ⟨h0, rfl⟩, delay_shape hsk, ?_, ⟨x, true, (hcov15 _ _).2 ⟨rfl, rfl⟩⟩, ?_, ?_, ?_, ?_, ?_, ?_⟩
        · intro y sec h; rw [hcov15] at h; omega
        · intro y hy h; rw [hcov15] at h; simp at h
        · intro y hy h; rw [hu y hy]; split
          · subst y; rfl
          · rfl
        · intro y hy h; rw [hcov15] at h; rw [hu y hy, h.1]; simp [f2]
        · intro y hy h; rw [hcov15] at h; rw [hu y hy, if_neg (by rintro rfl; simp at h)]
        · intro y hy; rw [hu y hy]; split
          · intro _; simpa using f1
          · exact hinv y hy
        · rw [h0, hs, hop]; exact hearly 1 true a k hk hno hl ho
  · rw [if_neg h0]
    obtain ⟨num, q1, q2, q3, q4⟩ := req_table req (by omega) hr
    rw [q1, Res.bind_ok]
    obtain ⟨r, e, hr', hr2⟩ := findGrant_found u n t num false h1 h2 q4 (by simp)
    rw [e, Res.bind_ok]
    match r, hr', hr2 with
    | none, _, hr2 => exact ⟨u, none, rfl, fun _ => ⟨rfl, by rw [q3, decide_eq_false h0]; exact hnorun num false (hr2 rfl)⟩, by intro _ h; cases h⟩
    | some (skips, xs), hr', _ =>
      obtain ⟨a, k, hk, hs, rfl, hl, hf, hno, ho⟩ := hr' skips xs rfl
      have hden := denotes_oppList n t h1 h2 a (k + 1) num hl
      have hw := fun x => oppList_window (n := n) (t := t) (a := a) (k := k + 1) h1 h2 (by omega) (x := x)
      have hsk : skips ≤ 16 := by
        have := cnt_le n t h1 h2 a
        omega
      obtain ⟨u', e2, hu⟩ := reserveFull_spec ssi (n - 2) (oppList n t a (k + 1)) u
        (fun x hx => ⟨by have := hw x hx; omega, by have := hw x hx; omega⟩) (oppList_nodup n t a (k + 1)) hf
      have hne : (oppList n t a (k + 1)).map fromInt ≠ [] := by
        intro hnil
        rw [List.map_eq_nil_iff] at hnil
        rw [hnil] at hl; simp at hl; omega
      obtain ⟨z, zs, hz⟩ := List.exists_cons_of_ne_nil hne
      have eg : grantFull u ssi num (some (skips, (oppList n t a (k + 1)).map fromInt)) = .ok (u', some ⟨req, grantDelayOf skips⟩) := by
        rw [hz, grantFull, ← hz, e2, Res.bind_ok, q2, Res.bind_ok]
        simp
      rw [eg]
      have hop := opps_grantDelayOf skips (by omega)
      rw [hs] at hop
      have hcov : ∀ y sec, Given.covers ⟨n, t, ssi, ⟨req, grantDelayOf skips⟩⟩ y sec ↔ y ∈ oppList n t a (k + 1) := by
        intro y sec
        rw [← hden y]
        unfold Given.covers
        simp only [q3, hs, hop]
        have n0 : req ≠ 15 := by omega
        simp [h0, n0]
      refine ⟨_, _, rfl, by simp, ?_⟩
      rintro g' ⟨⟩
      have hin : ∃ x, x ∈ oppList n t a (k + 1) := List.exists_mem_of_length_pos (by rw [hl]; exact q4)
      obtain ⟨x, hx⟩ := hin
      have hfr : ∀ y ∈ oppList n t a (k + 1), (u.at y).ul1 = none ∧ (u.at y).ul2 = none := by
        intro y hy
        have := hf y hy
        simpa [UlElem.free] using this
      refine ⟨.inl rfl, delay_shape hsk, ?_, ⟨x, true, (hcov _ _).2 hx⟩, ?_, ?_, ?_, ?_, ?_, ?_⟩
      · intro y sec h; rw [hcov] at h; exact (hw y h).2
      · intro y hy h; rw [hcov] at h; rw [(hu y hy).1 h]; exact ⟨(hfr y h).1, rfl⟩
      · intro y hy h; rw [hcov] at h; rw [(hu y hy).2 h]
      · intro y hy h; rw [hcov] at h; rw [(hu y hy).1 h]; exact ⟨(hfr y h).2, rfl⟩
      · intro y hy h; rw [hcov] at h; rw [(hu y hy).2 h]
      · intro y hy
        by_cases hm : y ∈ oppList n t a (k + 1)
        · rw [(hu y hy).1 hm]; simp
        · rw [(hu y hy).2 hm]; exact hinv y hy
      · rw [q3, decide_eq_false h0, hs, hop]; exact hearly num false a k hk hno hl ho

end Verif.Umac
