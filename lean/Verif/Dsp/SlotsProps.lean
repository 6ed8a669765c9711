import Verif.Core.TdmaProps
import Verif.Dsp.Slots
/-!
# Slots are read once each, in order
-/
namespace Verif.Dsp.Slots
open Verif Verif.Tdma

/-! ## Specification -/

/-- The counter of the sample at which slot number `m` has been received completely: 1020 samples each, and the delay of the
filter. -/
def slotEnd (m : Int) : Int := 1020 * (m + 1) + 16

/-- Sample number `n` has been received, or lost but the next one received comes at most 1020 later. -/
def Reached (ks : List Int) (n : Int) : Prop := n ∈ ks ∨ (0 ≤ n ∧ ∃ k ∈ ks, n < k ∧ k ≤ n + 1020 ∧ ∀ k' ∈ ks, k' < n ∨ k ≤ k')

/-! ## One sample -/

def isEnd (c : Int) : Bool := decide ((c - 16) % 1020 = 0) && decide (1020 ≤ c - 16 ∧ c - 16 ≤ 1020 * wrap)
def slotOf (c : Int) : Int := (c - 16) / 1020 - 1
def emits (cs : List Int) : List Int := (cs.filter isEnd).map slotOf

/-- The demodulator waits for the end of slot `m`, all before `last` has been dealt with; or the hyperframe counter has overflowed and
it waits for the end of a slot long past. -/
structure Waits (s : Demod) (last : Int) : Prop where
  wait : (∃ m : Int, 0 ≤ m ∧ m < wrap ∧ s.slot.toInt = m ∧ s.ready = 1020 * (m + 1) ∧ 1020 * wrap ≤ last - 16) ∨ ∃ m : Int, 0 ≤ m ∧ m < wrap ∧ s.slot = fromInt m ∧ s.ready = 1020 * (m + 1) ∧ last - 16 < 1020 * (m + 1) ∧
    (1020 * (m + 1) ≤ last - 16 + 1020 ∨ m = 0)
  start : -1 ≤ last

theorem add_ok {m n : Int} (h0 : 0 ≤ m) (h1 : m < wrap) (h2 : -wrap ≤ n) (h3 : n ≤ wrap) :
    (fromInt m).addTimeslots n = .ok (fromInt (m + n)) := by
  unfold Time.addTimeslots
  rw [toInt_fromInt, Int.emod_eq_of_lt h0 h1, if_pos]
  unfold inI32
  simp only [wrap] at *
  omega

theorem addSlots_ok {s : Demod} {m n : Int} (hs : s.slot = fromInt m) (h0 : 0 ≤ m) (h1 : m < wrap) (h2 : -wrap ≤ n) (h3 : n ≤ wrap) :
    s.addSlots n = .ok { s with slot := fromInt (m + n), ready := (m + n) % wrap * 1020 + 1020 } := by
  unfold Demod.addSlots
  rw [hs, add_ok h0 h1 h2 h3, Res.bind_ok]
  simp [Demod.setSlot, toInt_fromInt, perSlot]

theorem toI32_id {n : Int} (h0 : -2147483648 ≤ n) (h1 : n < 2147483648) : toI32 n = n := by
  unfold toI32
  rw [Int.bmod_def]
  split <;> omega

/-- The end of time for the counters below: nearly 306 days. -/
def farEnd : Int := 1020 * 1864368127

theorem process_late {s : Demod} {m last c : Int} (m0 : 0 ≤ m) (m1 : m < wrap) (e1 : s.slot.toInt = m) (e2 : s.ready = 1020 * (m + 1))
    (hl : 1020 * wrap ≤ last - 16) (h : last < c) (hc : c - 16 < farEnd) :
    ∃ s', s.process c = .ok (s', none) ∧ Waits s' c ∧ s'.next = s.next ∧ s'.avail = s.avail ∧ s'.time = s.time := by
  have hw : wrap = 283115520 := rfl
  simp only [farEnd] at hc
  obtain ⟨k, hk⟩ : ∃ k, k = (c - 16 - 1020 * (m + 1) + 1019) / 1020 := ⟨_, rfl⟩
  have hn : -(-(c - filterDelay - s.ready) / perSlot) = k := by
    rw [e2, hk]
    simp only [filterDelay, perSlot]
    omega
  have hadd : s.slot.addTimeslots k = .ok (fromInt (m + k)) := by
    unfold Time.addTimeslots
    rw [e1, if_pos]
    unfold inI32
    omega
  have hskip : s.skip (c - filterDelay) = .ok (s.setSlot (fromInt (m + k))) := by
    unfold Demod.skip
    simp only
    rw [if_neg (by simp only [filterDelay]; omega), hn, toI32_id (by omega) (by omega)]
    unfold Demod.addSlots
    rw [hadd]
    rfl
  have hr : (s.setSlot (fromInt (m + k))).ready = 1020 * ((m + k) % wrap + 1) := by
    simp only [Demod.setSlot, toInt_fromInt, perSlot]
    omega
  have hlt : (m + k) % wrap < wrap := Int.emod_lt_of_pos _ (by decide)
  have hge : 0 ≤ (m + k) % wrap := Int.emod_nonneg _ (by decide)
  refine ⟨s.setSlot (fromInt (m + k)), ?_, ⟨.inl ⟨(m + k) % wrap, hge, hlt, ?_, hr, by omega⟩, by omega⟩, rfl, rfl, rfl⟩
  · unfold Demod.process
    simp only [hskip, Res.bind_ok]
    rw [if_neg (by rw [hr]; simp only [filterDelay]; omega)]
    rfl
  · simp [Demod.setSlot, toInt_fromInt]

theorem process_ok {s : Demod} {last c : Int} (hs : Waits s last) (h : last < c) (hc : c - 16 < farEnd) :
    ∃ s', s.process c = .ok (s', if isEnd c then some (fromInt (slotOf c)) else none) ∧ Waits s' c ∧ s'.next = s.next ∧
      (isEnd c = true → s'.avail = true ∧ s'.time = fromInt (slotOf c - 2)) ∧
      (isEnd c = false → s'.avail = s.avail ∧ s'.time = s.time) := by
  have hw : wrap = 283115520 := rfl
  obtain ⟨⟨m, m0, m1, e1, e2, hl⟩ | ⟨m, m0, m1, e1, e2, m2, m3⟩, hl0⟩ := hs
  · obtain ⟨s', h1, h2, h3, h4, h5⟩ := process_late m0 m1 e1 e2 hl h hc
    have hend : isEnd c = false := by
      simp only [isEnd, Bool.and_eq_false_iff, decide_eq_false_iff_not]
      omega
    exact ⟨s', by rw [h1, hend]; rfl, h2, h3, fun h => by simp [hend] at h, fun _ => ⟨h4, h5⟩⟩
  by_cases hbig : 1020 * wrap < c - 16
  · have hm : s.slot.toInt = m := by rw [e1, toInt_fromInt, Int.emod_eq_of_lt m0 m1]
    have hend : isEnd c = false := by
      simp only [isEnd, Bool.and_eq_false_iff, decide_eq_false_iff_not]
      omega
    by_cases hlast : 1020 * wrap ≤ last - 16
    · obtain ⟨s', h1, h2, h3, h4, h5⟩ := process_late m0 m1 hm e2 hlast h hc
      exact ⟨s', by rw [h1, hend]; rfl, h2, h3, fun h => by simp [hend] at h, fun _ => ⟨h4, h5⟩⟩
    · obtain ⟨s', h1, h2, h3, h4, h5⟩ := process_late (last := 1020 * wrap + 16) m0 m1 hm e2 (by omega) (by omega) hc
      exact ⟨s', by rw [h1, hend]; rfl, h2, h3, fun h => by simp [hend] at h, fun _ => ⟨h4, h5⟩⟩
  -- the slot waited for when the sample is looked at
  have key : ∃ m' s1, 0 ≤ m' ∧ m' < wrap ∧ c - 16 ≤ 1020 * (m' + 1) ∧ (1020 * (m' + 1) ≤ c - 16 + 1019 ∨ m' = 0) ∧
      s1.slot = fromInt m' ∧ s1.ready = 1020 * (m' + 1) ∧ s1.next = s.next ∧ s1.avail = s.avail ∧ s1.time = s.time ∧
      s.skip (c - filterDelay) = .ok s1 := by
    unfold Demod.skip
    simp only
    by_cases hin : c - 16 ≤ 1020 * (m + 1)
    · refine ⟨m, s, m0, m1, hin, ?_, e1, e2, rfl, rfl, rfl, ?_⟩
      · omega
      · rw [if_pos]
        simp only [perSlot, filterDelay]
        omega
    · rw [if_neg (by simp only [filterDelay]; omega)]
      have hn : -(-(c - filterDelay - s.ready) / perSlot) = (c - 16 - 1020 * (m + 1) + 1019) / 1020 := by
        rw [e2]
        simp only [filterDelay, perSlot]
        omega
      generalize hg : (c - 16 - 1020 * (m + 1) + 1019) / 1020 = k at hn
      rw [hn, toI32_id (by omega) (by omega), addSlots_ok e1 m0 m1 (by omega) (by omega)]
      refine ⟨m + k, { s with slot := fromInt (m + k), ready := (m + k) % wrap * 1020 + 1020 }, by omega, by omega, by omega, by omega,
        rfl, ?_, rfl, rfl, rfl, rfl⟩
      simp only
      rw [Int.emod_eq_of_lt (by omega) (by omega)]
      omega
  obtain ⟨m', s1, a0, a1, a2, a3, b1, b2, b3, b4, b5, hkey⟩ := key
  unfold Demod.process
  simp only [hkey, Res.bind_ok]
  by_cases he : c - 16 = 1020 * (m' + 1)
  · have hend : isEnd c = true := by simp only [isEnd, Bool.and_eq_true, decide_eq_true_eq]; omega
    have hslot : slotOf c = m' := by unfold slotOf; omega
    rw [if_pos (by rw [b2]; exact he), b1, add_ok a0 a1 (by omega) (by omega), Res.bind_ok,
      addSlots_ok (m := m') (by simpa using b1) a0 a1 (by omega) (by omega), Res.bind_ok]
    refine ⟨⟨fromInt (m' + 1), (m' + 1) % wrap * 1020 + 1020, s1.next, fromInt (m' + -2), true⟩, by rw [hend, hslot]; rfl,
      ⟨?_, by omega⟩, b3, fun _ => ⟨rfl, ?_⟩, fun h => by simp [hend] at h⟩
    · by_cases hlast : m' + 1 < wrap
      · right
        refine ⟨m' + 1, ?_⟩
        simp only
        rw [Int.emod_eq_of_lt (by omega) (by omega)]
        refine ⟨by omega, by omega, trivial, by omega, by omega, by omega⟩
      · left
        refine ⟨(m' + 1) % wrap, Int.emod_nonneg _ (by decide), Int.emod_lt_of_pos _ (by decide), ?_, by simp only; omega, by omega⟩
        simp only [toInt_fromInt]
    · rw [hslot]; rfl
  · have hend : isEnd c = false := by
      simp only [isEnd, Bool.and_eq_false_iff, decide_eq_false_iff_not]
      omega
    rw [if_neg (by rw [b2]; exact he)]
    refine ⟨s1, by rw [hend]; rfl, ⟨.inr ⟨m', a0, a1, b1, b2, by omega, by omega⟩, by omega⟩, b3, fun h => by simp [hend] at h,
      fun _ => ⟨b4, b5⟩⟩

/-- What the demodulator offers after having read these slots. -/
def Offers (s s' : Demod) (ms : List Int) : Prop :=
  match ms.getLast? with
  | some m => s'.avail = true ∧ s'.time = fromInt (m - 2)
  | none => s'.avail = s.avail ∧ s'.time = s.time

theorem Offers.trans {s s1 s2 : Demod} {l l' : List Int} (h : Offers s s1 l) (h' : Offers s1 s2 l') : Offers s s2 (l ++ l') := by
  unfold Offers at *
  rw [List.getLast?_append]
  cases hl : l'.getLast? with
  | some m => rw [hl] at h'; simpa using h'
  | none =>
    rw [hl] at h'
    simp only at h'
    simp only [Option.none_or]
    cases hl : l.getLast? with
    | some m => rw [hl] at h; simp only at h ⊢; rw [h'.1, h'.2]; exact h
    | none => rw [hl] at h; simp only at h ⊢; rw [h'.1, h'.2]; exact h

theorem processAll_ok (cs : List Int) : ∀ {s : Demod} {last : Int}, Waits s last → (last :: cs).Pairwise (· < ·) →
    (∀ c ∈ cs, c - 16 < farEnd) →
    ∃ s', s.processAll cs = .ok (s', (emits cs).map fromInt) ∧ Waits s' (cs.getLastD last) ∧ s'.next = s.next ∧ Offers s s' (emits cs) := by
  induction cs with
  | nil => intro s last h _ _; exact ⟨s, rfl, h, rfl, rfl, rfl⟩
  | cons c cs ih =>
    intro s last h hp hb
    rw [List.pairwise_cons] at hp
    obtain ⟨s1, e1, w1, n1, o1, o2⟩ := process_ok h (hp.1 c (by simp)) (hb c (by simp))
    obtain ⟨s2, e2, w2, n2, o3⟩ := ih w1 hp.2 (fun x hx => hb x (by simp [hx]))
    have hd : (c :: cs).getLastD last = cs.getLastD c := by cases cs <;> simp [List.getLastD]
    have hem : emits (c :: cs) = (if isEnd c then [slotOf c] else []) ++ emits cs := by
      unfold emits
      rw [List.filter_cons]
      split <;> simp
    refine ⟨s2, ?_, by rw [hd]; exact w2, by rw [n2, n1], ?_⟩
    · unfold Demod.processAll
      rw [e1, Res.bind_ok, e2, Res.bind_ok, hem]
      cases isEnd c <;> simp
    · rw [hem]
      refine Offers.trans ?_ o3
      cases hc : isEnd c with
      | true => simpa [Offers] using o1 hc
      | false => simpa [Offers] using o2 hc

theorem emits_sorted {cs : List Int} (h : cs.Pairwise (· < ·)) : (emits cs).Pairwise (· < ·) := by
  unfold emits
  rw [List.pairwise_map]
  refine (h.filter isEnd).imp_of_mem ?_
  intro a b ha hb hab
  rw [List.mem_filter] at ha hb
  have h1 := ha.2
  have h2 := hb.2
  simp only [isEnd, Bool.and_eq_true, decide_eq_true_eq] at h1 h2
  unfold slotOf
  omega

theorem mem_emits {cs : List Int} {m : Int} : m ∈ emits cs ↔ 0 ≤ m ∧ m < wrap ∧ slotEnd m ∈ cs := by
  unfold emits
  simp only [List.mem_map, List.mem_filter]
  constructor
  · rintro ⟨c, ⟨hc, hend⟩, rfl⟩
    simp only [isEnd, Bool.and_eq_true, decide_eq_true_eq] at hend
    refine ⟨by unfold slotOf; omega, by unfold slotOf; omega, ?_⟩
    have : slotEnd (slotOf c) = c := by unfold slotEnd slotOf; omega
    rw [this]; exact hc
  · rintro ⟨hm, hw, hc⟩
    refine ⟨slotEnd m, ⟨hc, ?_⟩, ?_⟩
    · simp only [isEnd, slotEnd, Bool.and_eq_true]
      exact ⟨decide_eq_true (by omega), decide_eq_true (by omega)⟩
    · unfold slotEnd slotOf; omega

/-! ## Lost samples -/

/-- The counters for which `process_sample` is called. -/
def fed (next : Int) : List Int → List Int
  | [] => []
  | k :: ks => upTo (k - min (max (k - next) 0) 1020) ((min (max (k - next) 0) 1020).toNat + 1) ++ fed (k + 1) ks

theorem mem_upTo {a c : Int} {n : Nat} : c ∈ upTo a n ↔ a ≤ c ∧ c < a + n := by
  unfold upTo
  simp only [List.mem_map, List.mem_range]
  constructor
  · rintro ⟨i, hi, rfl⟩; omega
  · intro h; exact ⟨(c - a).toNat, by omega, by omega⟩

theorem upTo_sorted (a : Int) (n : Nat) : (upTo a n).Pairwise (· < ·) := by
  unfold upTo
  rw [List.pairwise_map]
  exact List.pairwise_lt_range.imp (fun h => by omega)

theorem upTo_last (a : Int) (n : Nat) (d : Int) : (upTo a (n + 1)).getLastD d = a + n := by
  unfold upTo
  rw [List.range_succ, List.map_append]
  simp

theorem samples_ok (ks : List Int) : ∀ {s : Demod}, Waits s (s.next - 1) → ((s.next - 1) :: ks).Pairwise (· < ·) →
    (∀ c ∈ ks, c - 16 < farEnd) →
    ∃ s', s.samples ks = .ok (s', (emits (fed s.next ks)).map fromInt) ∧ s'.next = ks.getLastD (s.next - 1) + 1 ∧
      Waits s' (s'.next - 1) ∧ Offers s s' (emits (fed s.next ks)) := by
  induction ks with
  | nil =>
    intro s h _ _
    refine ⟨s, rfl, ?_, h, rfl, rfl⟩
    simp only [List.getLastD_nil]
    omega
  | cons k ks ih =>
    intro s h hp hb
    rw [List.pairwise_cons] at hp
    have hk := hp.1 k (by simp)
    have hkb := hb k (by simp)
    obtain ⟨s1, e1, w1, n1, o1⟩ := processAll_ok (upTo (k - min (max (k - s.next) 0) 1020) ((min (max (k - s.next) 0) 1020).toNat + 1)) h
      (by
        rw [List.pairwise_cons]
        refine ⟨?_, upTo_sorted ..⟩
        intro c hc
        rw [mem_upTo] at hc
        omega)
      (by
        intro c hc
        rw [mem_upTo] at hc
        omega)
    rw [upTo_last] at w1
    have w1' : Waits { s1 with next := k + 1 } (k + 1 - 1) := by
      rw [show k + 1 - 1 = k - min (max (k - s.next) 0) 1020 + ((min (max (k - s.next) 0) 1020).toNat : Int) by omega]
      exact ⟨w1.1, w1.2⟩
    obtain ⟨s2, e2, n2, w2, o2⟩ := ih (s := { s1 with next := k + 1 }) w1' (by simpa using hp.2) (fun x hx => hb x (by simp [hx]))
    have hem : emits (fed s.next (k :: ks)) = emits (upTo (k - min (max (k - s.next) 0) 1020) ((min (max (k - s.next) 0) 1020).toNat + 1)) ++
        emits (fed (k + 1) ks) := by
      simp [emits, fed]
    refine ⟨s2, ?_, ?_, w2, ?_⟩
    · unfold Demod.samples Demod.sample
      simp only [perSlot]
      rw [e1, Res.bind_ok]
      simp only [Res.pure_eq, Res.bind_ok]
      rw [e2, Res.bind_ok, hem]
      simp
    · rw [n2]
      cases ks <;> simp [List.getLastD]
    · rw [hem]
      exact Offers.trans o1 o2

theorem fed_sorted (ks : List Int) : ∀ {next : Int}, ((next - 1) :: ks).Pairwise (· < ·) → ((next - 1) :: fed next ks).Pairwise (· < ·) := by
  induction ks with
  | nil => intro next _; simp [fed]
  | cons k ks ih =>
    intro next hp
    rw [List.pairwise_cons] at hp
    have hk := hp.1 k (by simp)
    have ih := ih (next := k + 1) (by rw [show k + 1 - 1 = k by omega]; exact hp.2)
    rw [show k + 1 - 1 = k by omega, List.pairwise_cons] at ih
    unfold fed
    rw [List.pairwise_cons, List.pairwise_append]
    refine ⟨?_, upTo_sorted .., ih.2, ?_⟩
    · intro c hc
      rw [List.mem_append] at hc
      rcases hc with hc | hc
      · rw [mem_upTo] at hc; omega
      · have := ih.1 c hc; omega
    · intro c hc d hd
      rw [mem_upTo] at hc
      have := ih.1 d hd
      omega

theorem mem_fed (ks : List Int) : ∀ {next : Int}, ((next - 1) :: ks).Pairwise (· < ·) → ∀ n, n ∈ fed next ks ↔
    n ∈ ks ∨ (next ≤ n ∧ ∃ k ∈ ks, n < k ∧ k ≤ n + 1020 ∧ ∀ k' ∈ ks, k' < n ∨ k ≤ k') := by
  induction ks with
  | nil => intro next _ n; simp [fed]
  | cons k ks ih =>
    intro next hp n
    rw [List.pairwise_cons] at hp
    have hk := hp.1 k (by simp)
    have hp2 := hp.2
    rw [List.pairwise_cons] at hp2
    have ih := ih (next := k + 1) (by rw [show k + 1 - 1 = k by omega]; exact hp.2) n
    unfold fed
    rw [List.mem_append, mem_upTo, ih]
    constructor
    · rintro (h | h | ⟨h1, j, hj, h2, h3, h4⟩)
      · by_cases e : n = k
        · exact .inl (by simp [e])
        · right
          refine ⟨by omega, k, by simp, by omega, by omega, ?_⟩
          intro k' hk'
          rw [List.mem_cons] at hk'
          rcases hk' with rfl | hk'
          · exact .inr (by omega)
          · have := hp2.1 k' hk'; exact .inr (by omega)
      · exact .inl (by simp [h])
      · right
        refine ⟨by omega, j, by simp [hj], h2, h3, ?_⟩
        intro k' hk'
        rw [List.mem_cons] at hk'
        rcases hk' with rfl | hk'
        · exact .inl (by omega)
        · exact h4 k' hk'
    · rintro (h | ⟨h1, j, hj, h2, h3, h4⟩)
      · rw [List.mem_cons] at h
        rcases h with rfl | h
        · exact .inl (by omega)
        · exact .inr (.inl h)
      · rw [List.mem_cons] at hj
        rcases hj with rfl | hj
        · left; omega
        · have hkj := hp2.1 j hj
          have := h4 k (by simp)
          right; right
          exact ⟨by omega, j, hj, h2, h3, fun k' hk' => h4 k' (by simp [hk'])⟩

theorem new_waits : Waits Demod.new (-1) := by
  refine ⟨.inr ⟨0, by decide, by decide, by decide, by decide, by decide, .inr rfl⟩, by decide⟩

/-- **C84.** Samples are received in any number, any of them may be lost. Slot number `m` is read from them exactly if the sample at its
end has been received, or was lost but no more than 1020 from it on up to the next one received; the slots are read in order, no
slot is read twice and the demodulator does not abort. This goes on until the hyperframe counter overflows, after 46 days. -/
theorem c84_slots (ks : List Int) (hk : ks.Pairwise (· < ·)) (h0 : ∀ k ∈ ks, 0 ≤ k) (hb : ∀ k ∈ ks, k < farEnd) :
    ∃ (s : Demod) (ms : List Int), Demod.new.samples ks = .ok (s, ms.map fromInt) ∧ ms.Pairwise (· < ·) ∧
      ∀ m, m ∈ ms ↔ 0 ≤ m ∧ m < wrap ∧ Reached ks (slotEnd m) := by
  have hs : (-1 :: ks).Pairwise (· < ·) := by
    rw [List.pairwise_cons]
    exact ⟨fun k hk => by have := h0 k hk; omega, hk⟩
  obtain ⟨s, e, _, _⟩ := samples_ok ks (s := Demod.new) new_waits hs (fun k h => by have := hb k h; omega)
  refine ⟨s, emits (fed 0 ks), e, emits_sorted (List.pairwise_cons.1 (fed_sorted ks (next := 0) hs)).2, ?_⟩
  intro m
  rw [mem_emits, mem_fed ks hs]
  rfl

/-- Of three slots, the last sample of the second is lost, with as many others as are allowed: it is read; with one more it is not. -/
example : (∃ s, Demod.new.samples (upTo 0 2056 ++ upTo 3076 100) = .ok (s, [fromInt 0, fromInt 1, fromInt 2])) ∧
    ∃ s, Demod.new.samples (upTo 0 2056 ++ upTo 3077 100) = .ok (s, [fromInt 0, fromInt 2]) :=
  ⟨⟨⟨fromInt 3, 4080, 3176, fromInt 0, true⟩, by decide +kernel⟩, ⟨⟨fromInt 3, 4080, 3177, fromInt 0, true⟩, by decide +kernel⟩⟩

/-- Without losses every slot is read. -/
theorem c84_all_slots (n : Nat) (hn : (n : Int) ≤ farEnd) :
    ∃ (s : Demod) (ms : List Int), Demod.new.samples (upTo 0 n) = .ok (s, ms.map fromInt) ∧ ms.Pairwise (· < ·) ∧
      ∀ m, m ∈ ms ↔ 0 ≤ m ∧ m < wrap ∧ slotEnd m < n := by
  obtain ⟨s, ms, e, p, h⟩ := c84_slots (upTo 0 n) (upTo_sorted _ _) (fun k hk => (mem_upTo.1 hk).1)
    (fun k hk => by have := (mem_upTo.1 hk).2; omega)
  refine ⟨s, ms, e, p, fun m => ?_⟩
  rw [h m]
  unfold Reached
  simp only [mem_upTo]
  constructor
  · rintro ⟨h0, hw, h | ⟨_, k, hk, _, _, h4⟩⟩
    · exact ⟨h0, hw, by omega⟩
    · rcases h4 0 (by omega) with h | h
      · exact ⟨h0, hw, by omega⟩
      · unfold slotEnd at *; omega
  · rintro ⟨h0, hw, h⟩
    exact ⟨h0, hw, .inl ⟨by unfold slotEnd; omega, by omega⟩⟩

/-- **C84, finding.** When the hyperframe counter overflows, after 283115520 slots (46 days), no slot is ever read again, although
samples keep arriving: a run without any loss which goes on for more than 300 days. -/
theorem c84_ends : ∃ (n : Nat) (s : Demod) (ms : List Int), slotEnd 1800000000 < n ∧
    Demod.new.samples (upTo 0 n) = .ok (s, ms.map fromInt) ∧ ∀ m ∈ ms, m < 283115520 := by
  obtain ⟨s, ms, e, _, h⟩ := c84_all_slots (1020 * 1864368127) (by decide)
  exact ⟨1020 * 1864368127, s, ms, by decide, e, fun m hm => ((h m).1 hm).2.1⟩

end Verif.Dsp.Slots
