import Verif.Dsp.SlotsProps
/-!
# The clock of the stack and the clock of the radio

The stack counts slots on its own, one for each slot the device returns (`messagerouter.rs`), and the time the demodulator gives with
a slot is not looked at (`phy_bs.rs`). So the two clocks agree only as long as no slot is missed.
-/
namespace Verif.Dsp.Slots
open Verif Verif.Tdma

/-! ## Specification -/

/-- What tick number `j` of the stack looks like to someone who knows which slot `m` was really received in it: the slot for the
transmitter is for the slot after the present one, and bursts are taken for those of slot `j`, with the numbers of the uplink (two
less). -/
def tickOf (j m : Int) : Tick := ⟨fromInt (j + 1), fromInt (j - 2), fromInt (m - 2)⟩

def ticksOf (j : Int) : List Int → List Tick
  | [] => []
  | m :: ms => tickOf j m :: ticksOf (j + 1) ms

/-! ## Blocks -/

/-- The slots returned by the device, when these blocks are received. -/
def returned (next : Int) : List Int → List Int
  | [] => []
  | b :: bs => (emits (fed next (upTo (b * 108) 108))).getLast?.toList ++ returned (b * 108 + 108) bs

theorem upTo_getLastD (a : Int) (d : Int) : (upTo a 108).getLastD d = a + 107 := upTo_last a 107 d

theorem block_ok {s : Demod} {b : Int} (hs : Waits s (s.next - 1)) (h : s.next ≤ b * 108) (hb : b * 108 + 108 ≤ farEnd) :
    ∃ s', s.block b = .ok (s', (emits (fed s.next (upTo (b * 108) 108))).map fromInt) ∧ s'.next = b * 108 + 108 ∧
      Waits s' (s'.next - 1) ∧ Offers s s' (emits (fed s.next (upTo (b * 108) 108))) := by
  obtain ⟨s', e, n, w, o⟩ := samples_ok (upTo (b * 108) 108) hs
    (by
      rw [List.pairwise_cons]
      exact ⟨fun c hc => by rw [mem_upTo] at hc; omega, upTo_sorted ..⟩)
    (fun c hc => by rw [mem_upTo] at hc; omega)
  refine ⟨s', e, ?_, w, o⟩
  rw [n, upTo_getLastD]
  omega

/-- Blocks come in order, none twice. -/
def Ordered (next : Int) (bs : List Int) : Prop := bs.Pairwise (· < ·) ∧ (∀ b ∈ bs, next ≤ b * 108) ∧ ∀ b ∈ bs, b * 108 + 108 ≤ farEnd

theorem Ordered.tail {next b : Int} {bs : List Int} (h : Ordered next (b :: bs)) : Ordered (b * 108 + 108) bs := by
  obtain ⟨h1, h2, h3⟩ := h
  rw [List.pairwise_cons] at h1
  exact ⟨h1.2, fun c hc => by have := h1.1 c hc; omega, fun c hc => h3 c (by simp [hc])⟩

theorem listen_ok (bs : List Int) : ∀ {s : Demod}, Waits s (s.next - 1) → s.avail = false → Ordered s.next bs →
    (returned s.next bs = [] ∧ ∃ s', s.listen bs = .ok (s', [], none)) ∨
    ∃ s' bs' m, s.listen bs = .ok (s', bs', some (fromInt (m - 2))) ∧ returned s.next bs = m :: returned s'.next bs' ∧
      Waits s' (s'.next - 1) ∧ s'.avail = false ∧ Ordered s'.next bs' := by
  induction bs with
  | nil => intro s _ _ _; exact .inl ⟨rfl, s, rfl⟩
  | cons b bs ih =>
    intro s hw ha ho
    obtain ⟨s1, e1, n1, w1, o1⟩ := block_ok hw (ho.2.1 b (by simp)) (ho.2.2 b (by simp))
    have ho' : Ordered s1.next bs := by rw [n1]; exact ho.tail
    have hret : returned s.next (b :: bs) = (emits (fed s.next (upTo (b * 108) 108))).getLast?.toList ++ returned s1.next bs := by
      rw [n1]; rfl
    unfold Demod.listen
    rw [e1, Res.bind_ok, hret]
    simp only
    unfold Offers at o1
    cases hl : (emits (fed s.next (upTo (b * 108) 108))).getLast? with
    | some m =>
      rw [hl] at o1
      simp only at o1
      rw [if_pos o1.1]
      exact .inr ⟨{ s1 with avail := false }, bs, m, by rw [← o1.2]; rfl, by simp, ⟨w1.1, w1.2⟩, rfl, ho'⟩
    | none =>
      rw [hl] at o1
      simp only at o1
      rw [ha] at o1
      rw [if_neg (by simp [o1.1])]
      simpa using ih w1 o1.1 ho'

theorem returned_lt (bs : List Int) : ∀ {next : Int}, 0 ≤ next → Ordered next bs → (returned next bs).Pairwise (· < ·) ∧
    ∀ m ∈ returned next bs, 0 ≤ m ∧ m < wrap ∧ next ≤ slotEnd m := by
  induction bs with
  | nil => intro next _ _; simp [returned]
  | cons b bs ih =>
    intro next h0 ho
    have hnext := ho.2.1 b (by simp)
    have hs : ((next - 1) :: upTo (b * 108) 108).Pairwise (· < ·) := by
      rw [List.pairwise_cons]
      exact ⟨fun c hc => by rw [mem_upTo] at hc; omega, upTo_sorted ..⟩
    obtain ⟨p, q⟩ := ih (by omega) ho.tail
    unfold returned
    cases hl : (emits (fed next (upTo (b * 108) 108))).getLast? with
    | none => simpa using ⟨p, fun m hm => ⟨(q m hm).1, (q m hm).2.1, by have := (q m hm).2.2; omega⟩⟩
    | some m =>
      have hm := List.mem_of_getLast? hl
      rw [mem_emits] at hm
      have hf := fed_sorted _ hs
      rw [List.pairwise_cons] at hf
      have h1 := hf.1 _ hm.2.2
      have h2 := (mem_fed _ hs _).1 hm.2.2
      have h3 : slotEnd m < b * 108 + 108 := by
        rcases h2 with h2 | ⟨_, k, hk, h2, _, _⟩
        · rw [mem_upTo] at h2; omega
        · rw [mem_upTo] at hk; omega
      simp only [Option.toList_some, List.singleton_append, List.pairwise_cons, List.mem_cons, forall_eq_or_imp]
      refine ⟨⟨?_, p⟩, ⟨hm.1, hm.2.1, by omega⟩, fun m' hm' => ⟨(q m' hm').1, (q m' hm').2.1, by have := (q m' hm').2.2; omega⟩⟩
      intro m' hm'
      have := (q m' hm').2.2
      unfold slotEnd at *
      omega

theorem run_ok (n : Nat) : ∀ {j : Int} {s : Demod} {bs : List Int}, 0 ≤ s.next → Waits s (s.next - 1) → s.avail = false →
    Ordered s.next bs → 0 ≤ j → (∀ m ∈ returned s.next bs, j ≤ m) →
    (⟨fromInt j, s⟩ : Stack).run bs n = .ok (ticksOf j ((returned s.next bs).take n)) := by
  have hw : wrap = 283115520 := rfl
  induction n with
  | zero => intros; rfl
  | succ n ih =>
    intro j s bs h0 hw ha ho hj hm
    have hr := returned_lt bs h0 ho
    unfold Stack.run Stack.tick
    rcases listen_ok bs hw ha ho with ⟨e, s', hs'⟩ | ⟨s', bs', m, e1, e2, w', a', o'⟩
    · rw [e]
      have hj1 : (fromInt j).addTimeslots 1 = .ok (fromInt (j % wrap + 1)) := by
        have := add_ok (m := j % wrap) (n := 1) (Int.emod_nonneg _ (by decide)) (Int.emod_lt_of_pos _ (by decide)) (by decide) (by decide)
        unfold Time.addTimeslots at this ⊢
        rw [toInt_fromInt] at this ⊢
        rw [Int.emod_emod] at this
        exact this
      simp only [hj1, Res.bind_ok, hs', Res.pure_eq]
      rfl
    · rw [e2] at hm hr ⊢
      have hjm := hm m (by simp)
      have hmw := (hr.2 m (by simp)).2.1
      have hsorted := List.pairwise_cons.1 hr.1
      simp only [add_ok hj (show j < wrap by omega) (show -wrap ≤ 1 by decide) (show (1 : Int) ≤ wrap by decide),
        add_ok hj (show j < wrap by omega) (show -wrap ≤ -2 by decide) (show (-2 : Int) ≤ wrap by decide), Res.bind_ok, e1, Res.pure_eq]
      have hn0 : 0 ≤ s'.next := by have := w'.2; omega
      have := ih (j := j + 1) (s := s') (bs := bs') hn0 w' a' o' (by omega) (fun m' hm' => by have := hsorted.1 m' hm'; omega)
      rw [this, Res.bind_ok]
      rfl

/-! ## The theorems -/

theorem ticksOf_get (ms : List Int) : ∀ (j : Int) (i : Nat), (ticksOf j ms)[i]? = ms[i]?.map (tickOf (j + i)) := by
  induction ms with
  | nil => intro j i; simp [ticksOf]
  | cons m ms ih =>
    intro j i
    cases i with
    | zero => simp [ticksOf]
    | succ i =>
      simp only [ticksOf, List.getElem?_cons_succ, ih]
      rw [show j + 1 + (i : Int) = j + (i + 1 : Nat) by omega]

/-- Blocks as a receiver gets them: in order, none twice, from some block on. -/
def Blocks (bs : List Int) : Prop := bs.Pairwise (· < ·) ∧ (∀ b ∈ bs, 0 ≤ b) ∧ ∀ b ∈ bs, b * 108 + 108 ≤ farEnd

theorem Blocks.ordered {bs : List Int} (h : Blocks bs) : Ordered 0 bs := ⟨h.1, fun b hb => by have := h.2.1 b hb; omega, h.2.2⟩

theorem sorted_gap {ms : List Int} (h : ms.Pairwise (· < ·)) {i j : Nat} (hij : i ≤ j) {a b : Int} (ha : ms[i]? = some a)
    (hb : ms[j]? = some b) : a + (j - i : Nat) ≤ b := by
  induction j generalizing b with
  | zero =>
    obtain rfl : i = 0 := by omega
    rw [ha] at hb; cases hb; simp
  | succ j ih =>
    by_cases e : i = j + 1
    · subst e; rw [ha] at hb; cases hb; simp
    · obtain ⟨hj, _⟩ := List.getElem?_eq_some_iff.1 hb
      have hj' : j < ms.length := by omega
      have h1 := ih (by omega) (List.getElem?_eq_getElem hj')
      have h2 := List.pairwise_iff_getElem.1 h j (j + 1) hj' hj (by omega)
      rw [List.getElem?_eq_getElem hj] at hb
      cases hb
      omega

theorem returned_ge {bs : List Int} (h : Blocks bs) (i : Nat) (m : Int) (hm : (returned 0 bs)[i]? = some m) : (i : Int) ≤ m := by
  obtain ⟨p, q⟩ := returned_lt bs (Int.le_refl _) h.ordered
  obtain ⟨hi, _⟩ := List.getElem?_eq_some_iff.1 hm
  have h0 : 0 < (returned 0 bs).length := by omega
  have := sorted_gap p (Nat.zero_le i) (List.getElem?_eq_getElem h0) hm
  have := (q _ (List.getElem_mem h0)).1
  omega

/-- **C85, in general.** Blocks of samples arrive in order, any of them may be lost. In tick `j` the stack gets what was received in
some slot `m`, takes it for slot `j`, and hands over the transmission for slot `j + 1`. The slot `m` is never earlier than `j`, and the
stack never catches up: if it is behind by a number of slots once, it is behind by at least as many for ever. -/
theorem c85_never_ahead (bs : List Int) (h : Blocks bs) (n : Nat) : ∃ ms : List Int,
    Stack.init.run bs n = .ok (ticksOf 0 ms) ∧ (∀ (i : Nat) (m : Int), ms[i]? = some m → (i : Int) ≤ m) ∧
    ∀ (i j : Nat) (a b : Int), i ≤ j → ms[i]? = some a → ms[j]? = some b → a - i ≤ b - j := by
  obtain ⟨p, q⟩ := returned_lt bs (Int.le_refl _) h.ordered
  refine ⟨(returned 0 bs).take n, ?_, ?_, ?_⟩
  · exact run_ok n (j := 0) (s := Demod.new) (Int.le_refl _) new_waits rfl h.ordered (Int.le_refl _) (fun m hm => (q m hm).1)
  · intro i m hm
    rw [List.getElem?_take] at hm
    split at hm
    · exact returned_ge h i m hm
    · cases hm
  · intro i j a b hij ha hb
    have := sorted_gap (p.sublist (List.take_sublist n _)) hij ha hb
    omega

theorem emits_small {cs : List Int} (h : cs.Pairwise (· < ·)) (hd : ∀ a ∈ cs, ∀ b ∈ cs, b < a + 1020) : (emits cs).length ≤ 1 := by
  have hs := emits_sorted h
  rcases he : emits cs with _ | ⟨a, _ | ⟨b, l⟩⟩
  · simp
  · simp
  · have ha : a ∈ emits cs := by simp [he]
    have hb : b ∈ emits cs := by simp [he]
    rw [mem_emits] at ha hb
    have h1 := hd _ ha.2.2 _ hb.2.2
    rw [he, List.pairwise_cons] at hs
    have := hs.1 b (by simp)
    unfold slotEnd at h1
    omega

theorem upTo_append (a : Int) (n m : Nat) : upTo a (n + m) = upTo a n ++ upTo (a + n) m := by
  unfold upTo
  rw [List.range_add, List.map_append, List.map_map]
  refine congrArg _ (List.map_congr_left fun i _ => ?_)
  simp only [Function.comp_apply]
  omega

theorem fed_whole (a : Int) (n : Nat) : fed a (upTo a n) = upTo a n := by
  induction n generalizing a with
  | zero => rfl
  | succ n ih =>
    have e : upTo a (n + 1) = a :: upTo (a + 1) n := by
      rw [Nat.add_comm, upTo_append]; simp [upTo]
    rw [e, fed, ih, Int.sub_self]
    simp [upTo, show min (0 : Int) 1020 = 0 by decide]

theorem returned_whole (k : Nat) : ∀ b : Int, returned (b * 108) (upTo b k) = emits (upTo (b * 108) (108 * k)) := by
  induction k with
  | zero => intro b; rfl
  | succ k ih =>
    intro b
    have e : upTo b (k + 1) = b :: upTo (b + 1) k := by
      rw [Nat.add_comm, upTo_append]; simp [upTo]
    rw [e, returned, fed_whole, show b * 108 + 108 = (b + 1) * 108 by omega, ih,
      show 108 * (k + 1) = 108 + 108 * k by omega, upTo_append, show b * 108 + (108 : Nat) = (b + 1) * 108 by omega]
    have h1 : (emits (upTo (b * 108) 108)).length ≤ 1 := emits_small (upTo_sorted ..) (fun a ha c hc => by rw [mem_upTo] at ha hc; omega)
    have h2 : emits (upTo (b * 108) 108 ++ upTo ((b + 1) * 108) (108 * k)) = emits (upTo (b * 108) 108) ++ emits (upTo ((b + 1) * 108) (108 * k)) := by
      simp [emits]
    rw [h2]
    congr 1
    rcases hl : emits (upTo (b * 108) 108) with _ | ⟨a, _ | ⟨c, l⟩⟩
    · rfl
    · rfl
    · rw [hl] at h1; simp at h1

theorem sorted_ext {l l' : List Int} (h : l.Pairwise (· < ·)) (h' : l'.Pairwise (· < ·)) (hm : ∀ x, x ∈ l ↔ x ∈ l') : l = l' := by
  induction l generalizing l' with
  | nil =>
    cases l' with
    | nil => rfl
    | cons b l' => have := (hm b).2 (by simp); simp at this
  | cons a l ih =>
    cases l' with
    | nil => have := (hm a).1 (by simp); simp at this
    | cons b l' =>
      rw [List.pairwise_cons] at h h'
      have h1 := (hm a).1 (by simp)
      have h2 := (hm b).2 (by simp)
      rw [List.mem_cons] at h1 h2
      have e : a = b := by
        rcases h1 with h1 | h1
        · exact h1
        · rcases h2 with h2 | h2
          · exact h2.symm
          · have := h.1 b h2; have := h'.1 a h1; omega
      subst e
      congr 1
      refine ih h.2 h'.2 (fun x => ?_)
      have hx := hm x
      simp only [List.mem_cons] at hx
      constructor
      · intro hl
        have := h.1 x hl
        rcases hx.1 (.inr hl) with e | e
        · omega
        · exact e
      · intro hl
        have := h'.1 x hl
        rcases hx.2 (.inr hl) with e | e
        · omega
        · exact e

theorem fed_first (a : Int) (n : Nat) (h0 : 0 ≤ a) (h1 : a ≤ 1020) : fed 0 (upTo a (n + 1)) = upTo 0 (a.toNat + (n + 1)) := by
  have e : upTo a (n + 1) = a :: upTo (a + 1) n := by
    rw [Nat.add_comm, upTo_append]; simp [upTo]
  rw [e, fed, fed_whole, show min (max (a - 0) 0) 1020 = a by omega, Int.sub_self, show a.toNat + (n + 1) = (a.toNat + 1) + n by omega,
    upTo_append 0 (a.toNat + 1), show (0 : Int) + (a.toNat + 1 : Nat) = a + 1 by omega]

theorem returned_first (b : Int) (h0 : 0 ≤ b) (h1 : b ≤ 9) (k : Nat) :
    returned 0 (upTo b (k + 1)) = emits (upTo 0 ((b * 108).toNat + 108 * (k + 1))) := by
  have e : upTo b (k + 1) = b :: upTo (b + 1) k := by
    rw [Nat.add_comm, upTo_append]; simp [upTo]
  rw [e, returned, fed_first _ 107 (by omega) (by omega), show b * 108 + 108 = (b + 1) * 108 by omega, returned_whole,
    show (b * 108).toNat + 108 * (k + 1) = (b * 108).toNat + (107 + 1) + 108 * k by omega, upTo_append 0 ((b * 108).toNat + (107 + 1)),
    show (0 : Int) + ((b * 108).toNat + (107 + 1) : Nat) = (b + 1) * 108 by omega]
  have h2 : ∀ x y : List Int, emits (x ++ y) = emits x ++ emits y := fun x y => by simp [emits]
  rw [h2]
  congr 1
  have hs := emits_sorted (upTo_sorted 0 ((b * 108).toNat + (107 + 1)))
  have hz : ∀ m ∈ emits (upTo 0 ((b * 108).toNat + (107 + 1))), m = 0 := by
    intro m hm
    rw [mem_emits, mem_upTo] at hm
    unfold slotEnd at hm
    omega
  rcases hl : emits (upTo 0 ((b * 108).toNat + (107 + 1))) with _ | ⟨a, _ | ⟨c, l⟩⟩
  · rfl
  · rfl
  · rw [hl] at hs hz
    have h3 := (List.pairwise_cons.1 hs).1 c (by simp)
    have h4 := hz a (by simp)
    have h5 := hz c (by simp)
    omega

theorem ticksOf_upTo (n : Nat) : ∀ j : Int, ticksOf j (upTo j n) = (List.range n).map fun i : Nat => tickOf (j + i) (j + i) := by
  induction n with
  | zero => intro j; rfl
  | succ n ih =>
    intro j
    have e : upTo j (n + 1) = j :: upTo (j + 1) n := by
      rw [Nat.add_comm, upTo_append]; simp [upTo]
    rw [e, ticksOf, ih, List.range_succ_eq_map, List.map_cons, List.map_map]
    congr 1
    · rw [show j + ((0 : Nat) : Int) = j by omega]
    · refine List.map_congr_left fun i _ => ?_
      simp only [Function.comp_apply]
      rw [show j + 1 + (i : Int) = j + (i.succ : Nat) by omega]

/-- **C85.** As long as no block is lost (and the hyperframe counter has not overflowed), the two clocks agree: in tick `j` the stack
gets the bursts of slot `j`, under the right time, and hands over the transmission of slot `j + 1`. The first blocks at the start may
be missing. -/
theorem c85_in_step (b : Int) (h0 : 0 ≤ b) (h1 : b ≤ 9) (k n : Nat) (hk : slotEnd n < (b + k) * 108) (hw : (n : Int) < wrap)
    (hf : (b + k) * 108 ≤ farEnd) : Stack.init.run (upTo b k) (n + 1) = .ok ((List.range (n + 1)).map fun j : Nat => tickOf j j) := by
  have hB : Ordered 0 (upTo b k) := by
    refine ⟨upTo_sorted .., fun c hc => ?_, fun c hc => ?_⟩ <;> rw [mem_upTo] at hc <;> omega
  have hret : returned 0 (upTo b k) = upTo 0 (min wrap (((b + k) * 108 - 17) / 1020)).toNat := by
    cases k with
    | zero => unfold slotEnd at hk; omega
    | succ k =>
      rw [returned_first b h0 h1]
      refine sorted_ext (emits_sorted (upTo_sorted ..)) (upTo_sorted ..) fun m => ?_
      rw [mem_emits, mem_upTo, mem_upTo]
      unfold slotEnd at *
      omega
  have := run_ok (n + 1) (j := 0) (s := Demod.new) (bs := upTo b k) (Int.le_refl _) new_waits rfl hB (Int.le_refl _) (fun m hm => by
    have := (returned_lt _ (Int.le_refl _) hB).2 m hm
    exact this.1)
  have hi : Stack.init = ⟨fromInt 0, Demod.new⟩ := rfl
  rw [hi, this]
  have hn : Demod.new.next = 0 := rfl
  rw [hn, hret]
  have ht : (upTo 0 (min wrap (((b + k) * 108 - 17) / 1020)).toNat).take (n + 1) = upTo 0 (n + 1) := by
    have h2 : (min wrap (((b + k) * 108 - 17) / 1020)).toNat = n + 1 + ((min wrap (((b + k) * 108 - 17) / 1020)).toNat - (n + 1)) := by
      unfold slotEnd at hk
      omega
    rw [h2, upTo_append, List.take_left' (by simp [upTo])]
  rw [ht, ticksOf_upTo]
  simp

theorem returned_append (l l' : List Int) : ∀ next, ∃ next', returned next (l ++ l') = returned next l ++ returned next' l' := by
  induction l with
  | nil => intro next; exact ⟨next, rfl⟩
  | cons b l ih =>
    intro next
    obtain ⟨next', h⟩ := ih (b * 108 + 108)
    exact ⟨next', by rw [List.cons_append, returned, h, returned, List.append_assoc]⟩

/-- After a loss: if the blocks `l` lead up to a slot `m` read in tick `ms.length`, the stack is behind by at least the difference in
every later tick, whatever blocks follow. -/
theorem c85_lost {l : List Int} {ms : List Int} {m : Int} (hl : returned 0 l = ms ++ [m]) (bs : List Int) (h : Blocks (l ++ bs))
    (n : Nat) : ∃ ms' : List Int, Stack.init.run (l ++ bs) n = .ok (ticksOf 0 ms') ∧
      ∀ (i : Nat) (a : Int), ms.length ≤ i → ms'[i]? = some a → a - i ≥ m - ms.length := by
  obtain ⟨p, q⟩ := returned_lt (l ++ bs) (Int.le_refl _) h.ordered
  refine ⟨(returned 0 (l ++ bs)).take n, ?_, ?_⟩
  · exact run_ok n (j := 0) (s := Demod.new) (Int.le_refl _) new_waits rfl h.ordered (Int.le_refl _) (fun m hm => (q m hm).1)
  · intro i a hi ha
    obtain ⟨next', e⟩ := returned_append l bs 0
    rw [List.getElem?_take] at ha
    split at ha
    · have hm : (returned 0 (l ++ bs))[ms.length]? = some m := by
        rw [e, hl, List.append_assoc, List.getElem?_append_right (by omega)]
        simp
      have := sorted_gap p hi hm ha
      omega
    · cases ha

/-- **C85, finding.** 972 samples (less than a slot) are lost once, after block 18. From then on, whatever is received after block 28,
in every tick the stack takes the bursts of a slot for those of the slot before, or of an earlier one, and hands over transmissions
too late by as much. -/
theorem c85_behind_for_ever (bs : List Int) (h : Blocks ((upTo 1 18 ++ [28]) ++ bs)) (n : Nat) :
    ∃ ms : List Int, Stack.init.run ((upTo 1 18 ++ [28]) ++ bs) n = .ok (ticksOf 0 ms) ∧
      ∀ (i : Nat) (m : Int), 1 ≤ i → ms[i]? = some m → m ≥ i + 1 := by
  obtain ⟨ms, e, hm⟩ := c85_lost (l := upTo 1 18 ++ [28]) (ms := [0]) (m := 2) (by decide +kernel) bs h n
  exact ⟨ms, e, fun i m hi hmi => by have := hm i m hi hmi; simp at this; omega⟩

example : Blocks ((upTo 1 18 ++ [28]) ++ upTo 29 20) := ⟨by decide +kernel, by decide +kernel, by decide +kernel⟩

/-- It happens: ticks 0 to 3 of such a run. -/
example : Stack.init.run ((upTo 1 18 ++ [28]) ++ upTo 29 20) 4 = .ok [tickOf 0 0, tickOf 1 2, tickOf 2 3, tickOf 3 4] := by
  decide +kernel

end Verif.Dsp.Slots
