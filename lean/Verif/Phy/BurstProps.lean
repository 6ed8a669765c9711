import Verif.Phy.Finder
import Verif.Lmac.Rm3014Props
import Verif.Lmac.SpeechProps
import Verif.Umac.SchedSlotProps
/-!
# C65, C66: what the base station sends in a slot

The layout of the bursts is stated by bit positions as in EN 300 392-2, clauses 9.4.4.2.5 and 9.4.4.2.6.
-/
namespace Verif.Phy
open Verif.ErrorControl

/-! ## Specification -/

/-- `n` bits from bit `o` on. -/
def field (b : List Bool) (o n : Nat) : List Bool := (b.drop o).take n

/-- Synchronisation continuous downlink burst: frequency correction, synchronisation block, training sequence, broadcast
block, second block. -/
structure SdbLayout (b sb1 bbk blk2 : List Bool) : Prop where
  len : b.length = 510
  head : field b 0 12 = field seqQ 10 12
  freq : field b 14 80 = freqCorr
  sb1 : field b 94 120 = sb1
  train : field b 214 38 = seqY
  bbk : field b 252 30 = bbk
  blk2 : field b 282 216 = blk2
  tail : field b 500 10 = field seqQ 0 10

/-- Normal continuous downlink burst: first block, first part of the broadcast block, training sequence, second part of the
broadcast block, second block. -/
structure NdbLayout (b train blk1 bbk blk2 : List Bool) : Prop where
  len : b.length = 510
  head : field b 0 12 = field seqQ 10 12
  blk1 : field b 14 216 = blk1
  train : field b 244 22 = train
  bbk : field b 230 14 ++ field b 266 16 = bbk
  blk2 : field b 282 216 = blk2
  tail : field b 500 10 = field seqQ 0 10

/-! ## Phases -/

/-- Sum of the phase changes. -/
def turn : List Bool → Int
  | b0 :: b1 :: rest => symbolStep b0 b1 + turn rest
  | _ => 0

theorem bits2phase_eq (b0 b1 : Bool) : bits2phase b0 b1 = symbolStep b0 b1 := by cases b0 <;> cases b1 <;> rfl

theorem sumLoop_eq : ∀ (n : Nat) (l : List Bool), 2 * n ≤ l.length → sumLoop n l = .ok (turn (l.take (2 * n)))
  | 0, l, _ => by simp [sumLoop, turn]
  | n + 1, l, h => by
    match l, h with
    | b0 :: b1 :: rest, h =>
      have h' : 2 * n ≤ rest.length := by simp at h; omega
      have e : (b0 :: b1 :: rest).take (2 * (n + 1)) = b0 :: b1 :: rest.take (2 * n) := by
        rw [show 2 * (n + 1) = 2 * n + 1 + 1 by omega]; rfl
      rw [e, sumLoop, sumLoop_eq n rest h', turn, bits2phase_eq]; rfl
    | [_], h => simp at h; omega
    | [], h => simp at h

theorem step_odd (b0 b1 : Bool) : symbolStep b0 b1 % 2 = 1 := by cases b0 <;> cases b1 <;> decide

theorem turn_parity : ∀ (n : Nat) (l : List Bool), l.length = 2 * n → turn l % 2 = (n : Int) % 2
  | 0, l, h => by have : l = [] := by simpa using h
                  subst this; rfl
  | n + 1, l, h => by
    match l, h with
    | b0 :: b1 :: rest, h =>
      have h' : rest.length = 2 * n := by simp at h; omega
      have := turn_parity n rest h'
      have := step_odd b0 b1
      simp only [turn]; omega
    | [_], h => simp at h; omega
    | [], h => simp at h

theorem turn_append : ∀ (n : Nat) (a b : List Bool), a.length = 2 * n → turn (a ++ b) = turn a + turn b
  | 0, a, b, h => by have : a = [] := by simpa using h
                     subst this; simp [turn]
  | n + 1, a, b, h => by
    match a, h with
    | b0 :: b1 :: rest, h =>
      have := turn_append n rest b (by simp at h; omega)
      simp only [List.cons_append, turn, this]; omega
    | [_], h => simp at h; omega
    | [], h => simp at h

theorem carrier_eq : ∀ (n : Nat) (p : Int) (l : List Bool), l.length = 2 * n → p % 8 = p → carrier p l = (p + turn l) % 8
  | 0, p, l, h, hp => by have : l = [] := by simpa using h
                         subst this; simp [carrier, turn, hp]
  | n + 1, p, l, h, hp => by
    match l, h with
    | b0 :: b1 :: rest, h =>
      simp only [carrier, turn]
      rw [carrier_eq n _ rest (by simp at h; omega) (by omega)]
      omega
    | [_], h => simp at h; omega
    | [], h => simp at h

/-- The two bits for a window turning the carrier by an odd amount `s`: together they turn it by a multiple of a half turn,
and by a multiple of a full turn exactly if `s` is three more than a multiple of four. -/
theorem phaseAdj_spec (z : List Bool) (n1 n2 k : Nat) (h1 : 1 ≤ n1) (h12 : n1 ≤ n2) (hk : n2 - n1 + 1 = 2 * k + 1)
    (hl : 2 * n2 ≤ z.length) :
    ∃ a, phaseAdj z n1 n2 = .ok a ∧ a.length = 2 ∧
      (turn (field z ((n1 - 1) * 2) (2 * (n2 - n1 + 1))) % 4 = 3 → (turn a + turn (field z ((n1 - 1) * 2) (2 * (n2 - n1 + 1)))) % 8 = 0) ∧
      (turn (field z ((n1 - 1) * 2) (2 * (n2 - n1 + 1))) % 4 ≠ 3 → (turn a + turn (field z ((n1 - 1) * 2) (2 * (n2 - n1 + 1)))) % 8 = 4) := by
  have hlen : (field z ((n1 - 1) * 2) (2 * (n2 - n1 + 1))).length = 2 * (n2 - n1 + 1) := by
    simp [field]; omega
  have hpar := turn_parity _ _ hlen
  unfold phaseAdj
  rw [sumLoop_eq _ _ (by simp; omega)]
  simp only [Res.bind_ok]
  change ∃ a, phase2bits (calcPhaseAdj (turn (field z ((n1 - 1) * 2) (2 * (n2 - n1 + 1))))) = _ ∧ _
  generalize turn (field z ((n1 - 1) * 2) (2 * (n2 - n1 + 1))) = s at *
  rw [hk] at hpar
  have hodd : s % 2 = 1 := by omega
  have ht : s.tmod 8 = s % 8 ∨ s.tmod 8 = s % 8 - 8 := by
    rcases Int.le_total 0 s with h | h
    · left; rw [Int.tmod_eq_emod_of_nonneg h]
    · have := Int.tmod_eq_emod (a := s) (b := 8)
      split at this
      · left; omega
      · right; omega
  have hc : calcPhaseAdj s = (if s % 8 = 1 then -1 else if s % 8 = 3 then -3 else if s % 8 = 5 then 3 else 1) := by
    unfold calcPhaseAdj
    have h8 : s % 8 = 1 ∨ s % 8 = 3 ∨ s % 8 = 5 ∨ s % 8 = 7 := by omega
    rcases h8 with h8 | h8 | h8 | h8 <;> rcases ht with ht | ht <;> simp [ht, h8]
  rw [hc]
  have h8 : s % 8 = 1 ∨ s % 8 = 3 ∨ s % 8 = 5 ∨ s % 8 = 7 := by omega
  rcases h8 with h8 | h8 | h8 | h8 <;> simp [h8, phase2bits, turn, symbolStep] <;> omega

theorem seq_lens : seqN.length = 22 ∧ seqP.length = 22 ∧ seqQ.length = 22 ∧ seqX.length = 30 ∧ seqY.length = 38 ∧ freqCorr.length = 80 := by
  decide

theorem ndb_length (a1 a2 t k1 bb k2 : List Bool) (h1 : a1.length = 2) (h2 : a2.length = 2) (ht : t.length = 22)
    (hk1 : k1.length = 216) (hbb : bb.length = 30) (hk2 : k2.length = 216) : (ndbBits a1 a2 t k1 bb k2).length = 510 := by
  simp [ndbBits, h1, h2, ht, hk1, hbb, hk2, seq_lens]

theorem field_at {z : List Bool} {o n : Nat} (a b c : List Bool) (h : z = a ++ (b ++ c)) (ho : a.length = o) (hn : b.length = n) :
    field z o n = b := by
  subst h; subst ho; subst hn; simp [field]

theorem q_lens : (seqQ.drop 10).length = 12 ∧ (seqQ.take 10).length = 10 ∧ field seqQ 10 12 = seqQ.drop 10 ∧ field seqQ 0 10 = seqQ.take 10 := by
  decide

theorem ndb_layout (a1 a2 t k1 bb k2 : List Bool) (h1 : a1.length = 2) (h2 : a2.length = 2) (ht : t.length = 22)
    (hk1 : k1.length = 216) (hbb : bb.length = 30) (hk2 : k2.length = 216) :
    NdbLayout (ndbBits a1 a2 t k1 bb k2) t k1 bb k2 ∧ field (ndbBits a1 a2 t k1 bb k2) 12 2 = a1 ∧
      field (ndbBits a1 a2 t k1 bb k2) 498 2 = a2 := by
  have hd : (List.drop 14 bb).length = 16 := by simp [hbb]
  have htk : (List.take 14 bb).length = 14 := by simp [hbb]
  obtain ⟨l1, l2, l3, l4⟩ := q_lens
  unfold ndbBits
  generalize seqQ.drop 10 = qa at *
  generalize seqQ.take 10 = qb at *
  have hbs : bb = bb.take 14 ++ bb.drop 14 := (List.take_append_drop 14 bb).symm
  generalize bb.take 14 = ba at *
  generalize bb.drop 14 = bc at *
  refine ⟨⟨by simp [*], ?_, ?_, ?_, ?_, ?_, ?_⟩, ?_, ?_⟩
  · rw [l3]; exact field_at [] qa (a1 ++ k1 ++ ba ++ t ++ bc ++ k2 ++ a2 ++ qb) (by simp) rfl l1
  · exact field_at (qa ++ a1) k1 (ba ++ t ++ bc ++ k2 ++ a2 ++ qb) (by simp) (by simp [*]) hk1
  · exact field_at (qa ++ a1 ++ k1 ++ ba) t (bc ++ k2 ++ a2 ++ qb) (by simp) (by simp [*]) ht
  · rw [field_at (qa ++ a1 ++ k1) ba (t ++ bc ++ k2 ++ a2 ++ qb) (by simp) (by simp [*]) htk,
      field_at (qa ++ a1 ++ k1 ++ ba ++ t) bc (k2 ++ a2 ++ qb) (by simp) (by simp [*]) hd]
    exact hbs.symm
  · exact field_at (qa ++ a1 ++ k1 ++ ba ++ t ++ bc) k2 (a2 ++ qb) (by simp) (by simp [*]) hk2
  · rw [l4]; exact field_at (qa ++ a1 ++ k1 ++ ba ++ t ++ bc ++ k2 ++ a2) qb [] (by simp) (by simp [*]) l2
  · exact field_at qa a1 (k1 ++ ba ++ t ++ bc ++ k2 ++ a2 ++ qb) (by simp) l1 h1
  · exact field_at (qa ++ a1 ++ k1 ++ ba ++ t ++ bc ++ k2) a2 qb (by simp) (by simp [*]) h2

theorem sdb_layout (a1 a2 k1 bb k2 : List Bool) (h1 : a1.length = 2) (h2 : a2.length = 2)
    (hk1 : k1.length = 120) (hbb : bb.length = 30) (hk2 : k2.length = 216) :
    SdbLayout (sdbBits a1 a2 k1 bb k2) k1 bb k2 ∧ field (sdbBits a1 a2 k1 bb k2) 12 2 = a1 ∧
      field (sdbBits a1 a2 k1 bb k2) 498 2 = a2 := by
  obtain ⟨l1, l2, l3, l4⟩ := q_lens
  obtain ⟨_, _, _, _, ly, lf⟩ := seq_lens
  unfold sdbBits
  generalize seqQ.drop 10 = qa at *
  generalize seqQ.take 10 = qb at *
  refine ⟨⟨by simp [*], ?_, ?_, ?_, ?_, ?_, ?_, ?_⟩, ?_, ?_⟩
  · rw [l3]; exact field_at [] qa (a1 ++ freqCorr ++ k1 ++ seqY ++ bb ++ k2 ++ a2 ++ qb) (by simp) rfl l1
  · exact field_at (qa ++ a1) freqCorr (k1 ++ seqY ++ bb ++ k2 ++ a2 ++ qb) (by simp) (by simp [*]) lf
  · exact field_at (qa ++ a1 ++ freqCorr) k1 (seqY ++ bb ++ k2 ++ a2 ++ qb) (by simp) (by simp [*]) hk1
  · exact field_at (qa ++ a1 ++ freqCorr ++ k1) seqY (bb ++ k2 ++ a2 ++ qb) (by simp) (by simp [*]) ly
  · exact field_at (qa ++ a1 ++ freqCorr ++ k1 ++ seqY) bb (k2 ++ a2 ++ qb) (by simp) (by simp [*]) hbb
  · exact field_at (qa ++ a1 ++ freqCorr ++ k1 ++ seqY ++ bb) k2 (a2 ++ qb) (by simp) (by simp [*]) hk2
  · rw [l4]; exact field_at (qa ++ a1 ++ freqCorr ++ k1 ++ seqY ++ bb ++ k2 ++ a2) qb [] (by simp) (by simp [*]) l2
  · exact field_at qa a1 (freqCorr ++ k1 ++ seqY ++ bb ++ k2 ++ a2 ++ qb) (by simp) l1 h1
  · exact field_at (qa ++ a1 ++ freqCorr ++ k1 ++ seqY ++ bb ++ k2) a2 qb (by simp) (by simp [*]) h2

/-! ## C66: the phase adjustment -/

/-- The carrier has the same phase after `i` bits of the burst as after `j`, whatever it was at the beginning. -/
def Aligned (b : List Bool) (i j : Nat) : Prop := ∀ p, 0 ≤ p → p < 8 → carrier p (b.take j) = carrier p (b.take i)

/-- The carrier is half a turn off. -/
def Opposite (b : List Bool) (i j : Nat) : Prop := ∀ p, 0 ≤ p → p < 8 → carrier p (b.take j) = (carrier p (b.take i) + 4) % 8

theorem carrier_window (b : List Bool) (i n : Nat) (hi : i % 2 = 0) (hn : n % 2 = 0) (hl : i + n ≤ b.length) (p : Int) (h0 : 0 ≤ p) (h8 : p < 8) :
    carrier p (b.take (i + n)) = (carrier p (b.take i) + turn (field b i n)) % 8 := by
  have e : b.take (i + n) = b.take i ++ field b i n := by rw [field, List.take_add]
  have l1 : (b.take i).length = 2 * (i / 2) := by simp; omega
  have l2 : (b.take (i + n)).length = 2 * ((i + n) / 2) := by simp; omega
  rw [carrier_eq _ p _ l2 (by omega), carrier_eq _ p _ l1 (by omega), e, turn_append _ _ _ l1]
  omega

theorem aligned_of {b : List Bool} {i n : Nat} (hi : i % 2 = 0) (hn : n % 2 = 0) (hl : i + n ≤ b.length)
    (h : turn (field b i n) % 8 = 0) : Aligned b i (i + n) := by
  intro p h0 h8
  rw [carrier_window b i n hi hn hl p h0 h8]
  have l1 : (b.take i).length = 2 * (i / 2) := by simp; omega
  rw [carrier_eq _ p _ l1 (by omega)]; omega

theorem opposite_of {b : List Bool} {i n : Nat} (hi : i % 2 = 0) (hn : n % 2 = 0) (hl : i + n ≤ b.length)
    (h : turn (field b i n) % 8 = 4) : Opposite b i (i + n) := by
  intro p h0 h8
  rw [carrier_window b i n hi hn hl p h0 h8]
  omega

theorem field_split (b : List Bool) (o m n : Nat) : field b o (m + n) = field b o m ++ field b (o + m) n := by
  rw [field, List.take_add, List.drop_drop]; rfl

theorem field_field (b : List Bool) (o m o' n : Nat) (h : o' + n ≤ m) : field (field b o m) o' n = field b (o + o') n := by
  simp only [field, List.drop_take, List.drop_drop, List.take_take]
  rw [Nat.min_eq_left (by omega)]

theorem ndb_middle (a1 a2 t k1 bb k2 : List Bool) (h1 : a1.length = 2) (ht : t.length = 22) (hk1 : k1.length = 216)
    (hbb : bb.length = 30) (hk2 : k2.length = 216) :
    field (ndbBits a1 a2 t k1 bb k2) 14 484 = k1 ++ bb.take 14 ++ t ++ bb.drop 14 ++ k2 := by
  obtain ⟨l1, l2, l3, l4⟩ := q_lens
  unfold ndbBits
  generalize seqQ.drop 10 = qa at *
  generalize seqQ.take 10 = qb at *
  exact field_at (qa ++ a1) _ (a2 ++ qb) (by simp) (by simp [*]) (by simp [*])

theorem sdb_middle (a1 a2 k1 bb k2 : List Bool) (h1 : a1.length = 2) (hk1 : k1.length = 120)
    (hbb : bb.length = 30) (hk2 : k2.length = 216) :
    field (sdbBits a1 a2 k1 bb k2) 14 484 = freqCorr ++ k1 ++ seqY ++ bb ++ k2 := by
  obtain ⟨l1, l2, l3, l4⟩ := q_lens
  obtain ⟨_, _, _, _, ly, lf⟩ := seq_lens
  unfold sdbBits
  generalize seqQ.drop 10 = qa at *
  generalize seqQ.take 10 = qb at *
  exact field_at (qa ++ a1) _ (a2 ++ qb) (by simp) (by simp [*]) (by simp [*])

/-- The windows of a burst `b` with the adjustment bits `a1` (bits 12, 13) and `a2` (bits 498, 499): `m` is where the first
window ends and the second begins. -/
theorem adjust (z b a1 a2 : List Bool) (m : Nat) (hz : field z 14 484 = field b 14 484) (hlb : b.length = 510)
    (hm : m % 2 = 0) (hm1 : 14 ≤ m) (hm2 : m ≤ 498) (f1 : field b 12 2 = a1) (f2 : field b 498 2 = a2)
    (h1 : (turn (field z 14 (m - 14)) % 4 = 3 → (turn a1 + turn (field z 14 (m - 14))) % 8 = 0) ∧
      (turn (field z 14 (m - 14)) % 4 ≠ 3 → (turn a1 + turn (field z 14 (m - 14))) % 8 = 4))
    (h2 : (turn (field z m (498 - m)) % 4 = 3 → (turn a2 + turn (field z m (498 - m))) % 8 = 0) ∧
      (turn (field z m (498 - m)) % 4 ≠ 3 → (turn a2 + turn (field z m (498 - m))) % 8 = 4)) :
    (turn (field b 14 (m - 14)) % 4 = 3 → Aligned b 12 m) ∧ (turn (field b 14 (m - 14)) % 4 ≠ 3 → Opposite b 12 m) ∧
    (turn (field b m (498 - m)) % 4 = 3 → Aligned b m 500) ∧ (turn (field b m (498 - m)) % 4 ≠ 3 → Opposite b m 500) := by
  have e1 : field z 14 (m - 14) = field b 14 (m - 14) := by
    have := congrArg (field · 0 (m - 14)) hz
    simpa only [field_field _ 14 484 0 (m - 14) (by omega), Nat.add_zero] using this
  have e2 : field z m (498 - m) = field b m (498 - m) := by
    have := congrArg (field · (m - 14) (498 - m)) hz
    simp only [field_field _ 14 484 (m - 14) (498 - m) (by omega)] at this
    rwa [show 14 + (m - 14) = m by omega] at this
  rw [e1] at h1; rw [e2] at h2
  have l12 : (field b 12 2).length = 2 * 1 := by simp [field]; omega
  have s1 : turn (field b 12 (2 + (m - 14))) = turn a1 + turn (field b 14 (m - 14)) := by
    rw [field_split, turn_append 1 _ _ l12, f1]
  have lw : (field b m (498 - m)).length = 2 * ((498 - m) / 2) := by simp [field]; omega
  have s2 : turn (field b m ((498 - m) + 2)) = turn (field b m (498 - m)) + turn a2 := by
    rw [field_split, turn_append _ _ _ lw, show m + (498 - m) = 498 by omega, f2]
  have t1 : 12 + (2 + (m - 14)) = m := by omega
  have t2 : m + ((498 - m) + 2) = 500 := by omega
  refine ⟨fun h => ?_, fun h => ?_, fun h => ?_, fun h => ?_⟩
  · have := aligned_of (b := b) (i := 12) (n := 2 + (m - 14)) (by omega) (by omega) (by omega) (by rw [s1]; exact h1.1 h)
    rwa [t1] at this
  · have := opposite_of (b := b) (i := 12) (n := 2 + (m - 14)) (by omega) (by omega) (by omega) (by rw [s1]; exact h1.2 h)
    rwa [t1] at this
  · have := aligned_of (b := b) (i := m) (n := (498 - m) + 2) (by omega) (by omega) (by omega) (by rw [s2]; have := h2.1 h; omega)
    rwa [t2] at this
  · have := opposite_of (b := b) (i := m) (n := (498 - m) + 2) (by omega) (by omega) (by omega) (by rw [s2]; have := h2.2 h; omega)
    rwa [t2] at this

/-- Both windows, the first of which ends at bit `m`: each is right exactly if the window without its adjustment symbol turns
the carrier by three more than a multiple of four eighths, and half a turn off otherwise. -/
structure HalfRight (b : List Bool) (m : Nat) : Prop where
  first : carrier 0 (field b 14 (m - 14)) % 4 = 3 → Aligned b 12 m
  firstOff : carrier 0 (field b 14 (m - 14)) % 4 ≠ 3 → Opposite b 12 m
  second : carrier 0 (field b m (498 - m)) % 4 = 3 → Aligned b m 500
  secondOff : carrier 0 (field b m (498 - m)) % 4 ≠ 3 → Opposite b m 500

theorem halfRight_of {b : List Bool} {m : Nat} (hl : b.length = 510) (hm : m % 2 = 0) (hm1 : 14 ≤ m) (hm2 : m ≤ 498)
    (h : (turn (field b 14 (m - 14)) % 4 = 3 → Aligned b 12 m) ∧ (turn (field b 14 (m - 14)) % 4 ≠ 3 → Opposite b 12 m) ∧
    (turn (field b m (498 - m)) % 4 = 3 → Aligned b m 500) ∧ (turn (field b m (498 - m)) % 4 ≠ 3 → Opposite b m 500)) : HalfRight b m := by
  have l1 : (field b 14 (m - 14)).length = 2 * ((m - 14) / 2) := by simp [field]; omega
  have l2 : (field b m (498 - m)).length = 2 * ((498 - m) / 2) := by simp [field]; omega
  have c1 := carrier_eq _ 0 _ l1 (by omega)
  have c2 := carrier_eq _ 0 _ l2 (by omega)
  refine ⟨fun x => h.1 ?_, fun x => h.2.1 ?_, fun x => h.2.2.1 ?_, fun x => h.2.2.2 ?_⟩ <;> omega

theorem buildNdb_spec (tr : Train) (t k1 bb k2 : List Bool) (htr : (tr = .norm1 ∧ t = seqN) ∨ (tr = .norm2 ∧ t = seqP))
    (hk1 : k1.length = 216) (hbb : bb.length = 30) (hk2 : k2.length = 216) :
    ∃ b, buildNdb tr k1 bb k2 = .ok b ∧ NdbLayout b t k1 bb k2 ∧ HalfRight b 244 := by
  have ht : t.length = 22 := by rcases htr with ⟨_, rfl⟩ | ⟨_, rfl⟩ <;> decide
  have hz := ndb_length [false, false] [false, false] t k1 bb k2 rfl rfl ht hk1 hbb hk2
  obtain ⟨a1, e1, l1, p1⟩ := phaseAdj_spec (ndbBits [false, false] [false, false] t k1 bb k2) 8 122 57 (by decide) (by decide) (by decide) (by omega)
  obtain ⟨a2, e2, l2, p2⟩ := phaseAdj_spec (ndbBits [false, false] [false, false] t k1 bb k2) 123 249 63 (by decide) (by decide) (by decide) (by omega)
  obtain ⟨hL, f1, f2⟩ := ndb_layout a1 a2 t k1 bb k2 l1 l2 ht hk1 hbb hk2
  refine ⟨ndbBits a1 a2 t k1 bb k2, ?_, hL, ?_⟩
  · rcases htr with ⟨rfl, rfl⟩ | ⟨rfl, rfl⟩ <;> simp only [buildNdb, Res.bind_ok, e1, e2]
  · refine halfRight_of hL.len (by decide) (by decide) (by decide) (adjust _ _ a1 a2 244 ?_ hL.len (by decide) (by decide) (by decide) f1 f2 p1 p2)
    rw [ndb_middle _ _ _ _ _ _ rfl ht hk1 hbb hk2, ndb_middle _ _ _ _ _ _ l1 ht hk1 hbb hk2]

theorem buildSdb_spec (k1 bb k2 : List Bool) (hk1 : k1.length = 120) (hbb : bb.length = 30) (hk2 : k2.length = 216) :
    ∃ b, buildSdb k1 bb k2 = .ok b ∧ SdbLayout b k1 bb k2 ∧ HalfRight b 216 := by
  have hz := (sdb_layout [false, false] [false, false] k1 bb k2 rfl rfl hk1 hbb hk2).1.len
  obtain ⟨a1, e1, l1, p1⟩ := phaseAdj_spec (sdbBits [false, false] [false, false] k1 bb k2) 8 108 50 (by decide) (by decide) (by decide) (by omega)
  obtain ⟨a2, e2, l2, p2⟩ := phaseAdj_spec (sdbBits [false, false] [false, false] k1 bb k2) 109 249 70 (by decide) (by decide) (by decide) (by omega)
  obtain ⟨hL, f1, f2⟩ := sdb_layout a1 a2 k1 bb k2 l1 l2 hk1 hbb hk2
  refine ⟨sdbBits a1 a2 k1 bb k2, ?_, hL, ?_⟩
  · simp only [buildSdb, Res.bind_ok, e1, e2]
  · refine halfRight_of hL.len (by decide) (by decide) (by decide) (adjust _ _ a1 a2 216 ?_ hL.len (by decide) (by decide) (by decide) f1 f2 p1 p2)
    rw [sdb_middle _ _ _ _ _ rfl hk1 hbb hk2, sdb_middle _ _ _ _ _ l1 hk1 hbb hk2]

end Verif.Phy
