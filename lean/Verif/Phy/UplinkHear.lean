import Verif.Phy.UplinkRun
import Verif.Lmac.Total
import Verif.Umac.UmacSteal
/-!
# What is heard in a slot

The specification of the uplink: which bits of a slot are a burst, and what the upper MAC is told about it.
-/
namespace Verif.Phy
open Verif.Umac Verif.Tdma Verif.Codec Verif.ErrorControl

/-! ## Specification -/

/-- The coded bits before the training sequence of a normal burst which begins at bit `p` (EN 300 392-2, 9.4.4.2.4: four tail
bits, 216 bits, 22 bits of training sequence, 216 bits, four tail bits). -/
def normHalf1 (rx : List Bool) (p : Nat) : List Bool := cut rx (p + 4) 216

/-- The coded bits after it. -/
def normHalf2 (rx : List Bool) (p : Nat) : List Bool := cut rx (p + 242) 216

/-- The coded bits of a control burst which begins at bit `p` (EN 300 392-2, 9.4.4.2.1: four tail bits, 84 bits, 30 bits of
training sequence, 84 bits, four tail bits). -/
def ctlBits (rx : List Bool) (p : Nat) : List Bool := cut rx (p + 4) 84 ++ cut rx (p + 118) 84

/-- What the upper MAC is told about a half slot: nothing without a control burst or with a wrong checksum, else the block.
`ts` is the time of the slot. -/
inductive SubHeard (code : BitVec 32) (ts : Time) (rx : List Bool) : List UmacEv → Prop where
  | silent : NoSpot rx seqX 88 48 → SubHeard code ts rx []
  | bad (p : Nat) (d : List Bool) : Spot rx seqX 88 48 p → decodeCp .schHu false (ctlBits rx p) (some code) = .ok (some d, false) →
      SubHeard code ts rx []
  | good (p : Nat) (d : List Bool) : Spot rx seqX 88 48 p → decodeCp .schHu false (ctlBits rx p) (some code) = .ok (some d, true) →
      SubHeard code ts rx [.block ⟨.schHu, .block1, ts⟩ d]

/-- What the upper MAC is told about a whole slot, with its answers, and the voice in it. `tp` says whether the slot is a traffic
slot. With the first training sequence the slot is one block, signalling or voice; with the second one it is two blocks, and the
second is signalling outside traffic or when the first one says so. -/
inductive FullHeard (code : BitVec 32) (ts : Time) (tp : Bool) (rx : List Bool) : Calls → List UmacEv → Prop where
  | silent : NoSpot rx seqN 220 48 → NoSpot rx seqP 220 48 → FullHeard code ts tp rx [] []
  | voice (p : Nat) (d : List Bool) (ok : Bool) : tp = true → Spot rx seqN 220 48 p →
      decodeTp (normHalf1 rx p ++ normHalf2 rx p) code = .ok (d, ok) → FullHeard code ts tp rx [] [.voiceUp ts.t (d.map Bool.toNat)]
  | bad (p : Nat) (d : List Bool) : tp = false → Spot rx seqN 220 48 p →
      decodeCp .schF false (normHalf1 rx p ++ normHalf2 rx p) (some code) = .ok (some d, false) → FullHeard code ts tp rx [] []
  | good (p : Nat) (d : List Bool) (out : List UmacOut) : tp = false → Spot rx seqN 220 48 p →
      decodeCp .schF false (normHalf1 rx p ++ normHalf2 rx p) (some code) = .ok (some d, true) →
      FullHeard code ts tp rx [(.block ⟨.schF, .both, ts⟩ d, out)] []
  | halves (p : Nat) (d1 d2 : List Bool) (ok1 ok2 : Bool) (x1 x2 : Calls) : NoSpot rx seqN 220 48 → Spot rx seqP 220 48 p →
      decodeCp .stch false (normHalf1 rx p) (some code) = .ok (some d1, ok1) →
      decodeCp .stch false (normHalf2 rx p) (some code) = .ok (some d2, ok2) →
      (ok1 = true → ∃ out, x1 = [(.block ⟨.stch, .block1, ts⟩ d1, out)]) → (ok1 = false → x1 = []) →
      (ok2 = true ∧ (tp = false ∨ ∃ q ∈ x1, .secondHalf ∈ q.2) → ∃ out, x2 = [(.block ⟨.stch, .block2, ts⟩ d2, out)]) →
      (¬ (ok2 = true ∧ (tp = false ∨ ∃ q ∈ x1, .secondHalf ∈ q.2)) → x2 = []) → FullHeard code ts tp rx (x1 ++ x2) []

/-- The bits the demodulator makes of a slot and of its halves: 255 and 127 symbols of two bits. -/
structure Air.Sized (a : Air) : Prop where
  full : a.full.length = 510
  sub1 : a.sub1.length = 254
  sub2 : a.sub2.length = 254

/-- Since the beginning of the present slot nothing has been received. -/
def Fresh (h : List (CellEv × CellOut)) : Prop :=
  ∃ h1 w o h2, h = h1 ++ (.down w, o) :: h2 ∧ ∀ p ∈ h2, ∀ a, p.1 ≠ .up a

/-! ## Spots -/

theorem least {P : Nat → Prop} : ∀ n, P n → ∃ m, P m ∧ ∀ k, k < m → ¬ P k := by
  intro n
  induction n using Nat.strongRecOn with
  | _ n ih =>
    intro h
    by_cases hk : ∃ k, k < n ∧ P k
    · obtain ⟨k, h1, h2⟩ := hk; exact ih k h1 h2
    · exact ⟨n, h, fun k h1 h2 => hk ⟨k, h1, h2⟩⟩

/-- Either there is such a place or not. -/
theorem spot_or_none (bits seq : List Bool) (o span : Nat) : (∃ p, Spot bits seq o span p) ∨ NoSpot bits seq o span := by
  by_cases h : ∃ q, q % 2 = 0 ∧ q ≤ span ∧ dist bits seq (o + q) ≤ 1
  · left
    obtain ⟨q, h1, h2, h3⟩ := h
    obtain ⟨d, ⟨q', g1, g2, g3⟩, hmin⟩ := least (P := fun d => ∃ q, q % 2 = 0 ∧ q ≤ span ∧ dist bits seq (o + q) = d) _ ⟨q, h1, h2, rfl⟩
    obtain ⟨p, ⟨p1, p2, p3⟩, pmin⟩ := least (P := fun q => q % 2 = 0 ∧ q ≤ span ∧ dist bits seq (o + q) = d) _ ⟨g1, g2, g3⟩
    have le : ∀ r, r % 2 = 0 → r ≤ span → d ≤ dist bits seq (o + r) := by
      intro r r1 r2
      rcases Nat.lt_or_ge (dist bits seq (o + r)) d with h | h
      · exact absurd ⟨r, r1, r2, rfl⟩ (hmin _ h)
      · exact h
    refine ⟨p, p1, p2, ?_, ?_, ?_⟩
    · have := le q h1 h2; omega
    · intro r r1 r2
      have h1 := le r r1 (by omega)
      have h2 : dist bits seq (o + r) ≠ d := fun h => pmin r r2 ⟨r1, by omega, h⟩
      omega
    · intro r r1 _ r3
      rw [p3]; exact le r r1 r3
  · right
    intro q h1 h2
    have : ¬ dist bits seq (o + q) ≤ 1 := fun h3 => h ⟨q, h1, h2, h3⟩
    omega

theorem Spot.unique {bits seq : List Bool} {o span p q : Nat} (h : Spot bits seq o span p) (h' : Spot bits seq o span q) : p = q := by
  rcases Nat.lt_trichotomy p q with hlt | he | hlt
  · have := h.after q h'.even hlt h'.range
    have := h'.before p h.even hlt
    omega
  · exact he
  · have := h'.after p h.even hlt h.range
    have := h.before q h'.even hlt
    omega

theorem Spot.not {bits seq : List Bool} {o span p : Nat} (h : Spot bits seq o span p) : ¬ NoSpot bits seq o span := by
  intro hn
  have := hn p h.even h.range
  have := h.near
  omega

/-! ## The physical layer -/

theorem cut_cut (rx : List Bool) (p n o m : Nat) (h : o + m ≤ n) : cut (cut rx p n) o m = cut rx (p + o) m := by
  unfold cut
  rw [List.drop_take, List.take_take, List.drop_drop]
  congr 1
  omega

theorem cut_length {rx : List Bool} {p n : Nat} (h : p + n ≤ rx.length) : (cut rx p n).length = n := by
  simp [cut]; omega

inductive SubInds (rx : List Bool) : List TpInd → Prop where
  | none : NoSpot rx seqX 88 48 → SubInds rx []
  | some (p : Nat) : Spot rx seqX 88 48 p → SubInds rx [⟨.ext, .block1, ctlBits rx p⟩]

inductive FullInds (rx : List Bool) : List TpInd → Prop where
  | none : NoSpot rx seqN 220 48 → NoSpot rx seqP 220 48 → FullInds rx []
  | norm1 (p : Nat) : Spot rx seqN 220 48 p → FullInds rx [⟨.norm1, .both, normHalf1 rx p ++ normHalf2 rx p⟩]
  | norm2 (p : Nat) : NoSpot rx seqN 220 48 → Spot rx seqP 220 48 p →
      FullInds rx [⟨.norm2, .block1, normHalf1 rx p⟩, ⟨.norm2, .block2, normHalf2 rx p⟩]

theorem full_inds {rx : List Bool} (hl : rx.length = 510) : ∃ f bs, findUlFull rx = .ok f ∧ splitFound f = .ok bs ∧ FullInds rx bs := by
  rcases spot_or_none rx seqN 220 48 with ⟨p, S⟩ | N
  · refine ⟨_, _, full_norm1 hl S, ?_, .norm1 p S⟩
    have := S.range
    simp only [splitFound, splitBurst]
    rw [show (cut rx p 462).length = 462 from cut_length (by omega)]
    simp only [beq_self_eq_true, Res.assert_true, Res.bind_ok]
    rw [cut_cut _ _ _ _ _ (by omega), cut_cut _ _ _ _ _ (by omega)]
    rfl
  · rcases spot_or_none rx seqP 220 48 with ⟨p, S⟩ | P
    · refine ⟨_, _, full_norm2 hl N S, ?_, .norm2 p N S⟩
      have := S.range
      simp only [splitFound, splitBurst]
      rw [show (cut rx p 462).length = 462 from cut_length (by omega)]
      simp only [beq_self_eq_true, Res.assert_true, Res.bind_ok]
      rw [cut_cut _ _ _ _ _ (by omega), cut_cut _ _ _ _ _ (by omega)]
      rfl
    · exact ⟨_, _, full_none hl N P, rfl, .none N P⟩

theorem sub_inds {rx : List Bool} (hl : rx.length = 254) : ∃ f bs, findUlSub rx = .ok f ∧ splitFound f = .ok bs ∧ SubInds rx bs := by
  rcases spot_or_none rx seqX 88 48 with ⟨p, S⟩ | N
  · refine ⟨_, _, sub_ext hl S, ?_, .some p S⟩
    have := S.range
    simp only [splitFound, splitBurst]
    rw [show (cut rx p 206).length = 206 from cut_length (by omega)]
    simp only [beq_self_eq_true, Res.assert_true, Res.bind_ok]
    rw [cut_cut _ _ _ _ _ (by omega), cut_cut _ _ _ _ _ (by omega)]
    rfl
  · exact ⟨_, _, sub_none hl N, rfl, .none N⟩

theorem phy_inds {a : Air} (hl : a.Sized) : ∃ f y z, phyRx a = .ok (f ++ y ++ z) ∧ FullInds a.full f ∧ SubInds a.sub1 y ∧ SubInds a.sub2 z := by
  obtain ⟨f, bf, f1, f2, f3⟩ := full_inds hl.full
  obtain ⟨y, by_, y1, y2, y3⟩ := sub_inds hl.sub1
  obtain ⟨z, bz, z1, z2, z3⟩ := sub_inds hl.sub2
  refine ⟨bf, by_, bz, ?_, f3, y3, z3⟩
  unfold phyRx
  rw [f1, Res.bind_ok, y1, Res.bind_ok, z1, Res.bind_ok, f2, Res.bind_ok, y2, Res.bind_ok, z2, Res.bind_ok]

theorem normHalf_length {rx : List Bool} (hl : rx.length = 510) {p : Nat} (hp : p ≤ 48) : (normHalf1 rx p).length = 216 ∧ (normHalf2 rx p).length = 216 :=
  ⟨cut_length (by omega), cut_length (by omega)⟩

theorem ctlBits_length {rx : List Bool} (hl : rx.length = 254) {p : Nat} (hp : p ≤ 48) : (ctlBits rx p).length = 168 := by
  unfold ctlBits
  rw [List.length_append, cut_length (by omega), cut_length (by omega)]

/-! ## The lower MAC -/

section rx
variable {l : LmacUl} {x : Time} {i : Fin 4} (hi : Slots.idx x.t = .ok i)
include hi

theorem rx_ctl (hs : l.stolen = false) {bits d : List Bool} {ok : Bool} (hd : decodeCp .schHu false bits (some l.code) = .ok (some d, ok)) :
    l.rx x ⟨.ext, .block1, bits⟩ = .ok (if ok then .block ⟨.schHu, .block1, x⟩ d else .nothing) := by
  unfold LmacUl.rx
  rw [hi]
  simp [ulChannel, hs, LmacUl.control, hd]

theorem rx_ctl_stolen (hs : l.stolen = true) {bits : List Bool} : l.rx x ⟨.ext, .block1, bits⟩ = .panic := by
  unfold LmacUl.rx
  rw [hi]
  simp [ulChannel, hs, Res.assert, bind, Res.bind]

theorem rx_full (hs : l.stolen = false) (ht : l.traffic i = false) {bits d : List Bool} {ok : Bool}
    (hd : decodeCp .schF false bits (some l.code) = .ok (some d, ok)) :
    l.rx x ⟨.norm1, .both, bits⟩ = .ok (if ok then .block ⟨.schF, .both, x⟩ d else .nothing) := by
  unfold LmacUl.rx
  rw [hi]
  simp [ulChannel, hs, ht, LmacUl.control, hd]

theorem rx_voice (hs : l.stolen = false) (ht : l.traffic i = true) {bits d : List Bool} {ok : Bool} (hd : decodeTp bits l.code = .ok (d, ok)) :
    l.rx x ⟨.norm1, .both, bits⟩ = .ok (.voice x.t d) := by
  unfold LmacUl.rx
  rw [hi]
  simp [ulChannel, hs, ht, LmacUl.voice, hd]

theorem rx_half1 (hs : l.stolen = false) {bits d : List Bool} {ok : Bool} (hd : decodeCp .stch false bits (some l.code) = .ok (some d, ok)) :
    l.rx x ⟨.norm2, .block1, bits⟩ = .ok (if ok then .block ⟨.stch, .block1, x⟩ d else .nothing) := by
  unfold LmacUl.rx
  rw [hi]
  simp [ulChannel, hs, LmacUl.control, hd]

theorem rx_half2 (hs : l.stolen = l.traffic i) {bits d : List Bool} {ok : Bool} (hd : decodeCp .stch false bits (some l.code) = .ok (some d, ok)) :
    l.rx x ⟨.norm2, .block2, bits⟩ = .ok (if ok then .block ⟨.stch, .block2, x⟩ d else .nothing) := by
  unfold LmacUl.rx
  rw [hi]
  cases ht : l.traffic i <;> simp [ulChannel, hs, ht, LmacUl.control, hd, show (BlockNum.block2 != BlockNum.block1) = true from rfl]

theorem rx_half2_voice (hs : l.stolen = false) (ht : l.traffic i = true) {bits : List Bool} :
    l.rx x ⟨.norm2, .block2, bits⟩ = .ok .nothing := by
  unfold LmacUl.rx
  rw [hi]
  simp [ulChannel, hs, ht, LmacUl.voice]

theorem rx_half2_stolen (hs : l.stolen = true) (ht : l.traffic i = false) {bits : List Bool} : l.rx x ⟨.norm2, .block2, bits⟩ = .panic := by
  unfold LmacUl.rx
  rw [hi]
  simp [ulChannel, hs, ht, Res.assert, bind, Res.bind]

end rx

end Verif.Phy
