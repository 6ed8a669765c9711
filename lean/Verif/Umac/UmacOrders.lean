import Verif.Umac.UmacLog
/-!
# What the orders of call control make of the upper MAC: specification and lemmas
-/
namespace Verif.Umac
open Verif.Tdma Verif.Codec

/-! ## Specification -/

/-- The circuit of direction `d` on timeslot `ts` after one more order. -/
def ordered (d : Dir) (ts : Nat) (o : Option Circuit) : MacCtl → Option Circuit
  | .open c => if c.ts = ts ∧ (c.direction = d ∨ c.direction = .both) then some { c with direction := d } else o
  | .close d' ts' => if ts' = ts ∧ (d' = d ∨ d' = .both) then none else o
  | _ => o

/-- Whether timeslot `ts` is in hang time after one more order. -/
def orderedHang (ts : Nat) (b : Bool) : MacCtl → Bool
  | .open c => if c.ts = ts ∧ c.direction ≠ .none then false else b
  | .close d t => if t = ts ∧ d ≠ .none then false else b
  | .released t => if t = ts then true else b
  | .granted t => if t = ts then false else b
  | .ended t => if t = ts then false else b

/-- The order an event brings. -/
def UmacEv.order : UmacEv → Option MacCtl
  | .control m => some m
  | _ => none

/-- The orders of a history. -/
def orders (h : List (UmacEv × List UmacOut)) : List MacCtl := h.filterMap fun p => p.1.order

/-- The circuit on a timeslot according to a list of orders. -/
def circuitBy (l : List MacCtl) (d : Dir) (ts : Nat) : Option Circuit := l.foldl (ordered d ts) none

/-- Whether a timeslot is in hang time according to a list of orders. -/
def hangBy (l : List MacCtl) (ts : Nat) : Bool := l.foldl (orderedHang ts) false

/-- Is this event a tick of the clock? -/
def UmacEv.isTick : UmacEv → Bool
  | .tick _ => true
  | _ => false

/-- Slots that have passed. -/
def slotsIn (h : List (UmacEv × List UmacOut)) : Nat := h.countP fun p => p.1.isTick

/-! ## Lemmas -/

theorem foldl_stays {α β : Type} (f : β → α → β) (l : List α) (b : β) (h : ∀ a ∈ l, f b a = b) : l.foldl f b = b := by
  induction l with
  | nil => rfl
  | cons a l ih =>
    rw [List.foldl_cons, h a List.mem_cons_self]
    exact ih (fun a ha => h a (List.mem_cons_of_mem _ ha))

/-- What the calls of one event do to a circuit. -/
theorem caused_circuit {s : UmacBs} {e : UmacEv} {es : List SchedEv} (h : Caused s e es) {d : Dir} (hd : d = .dl ∨ d = .ul) (ts : Nat)
    (o : Option Circuit) : es.foldl (circuitAfter d ts) o = (match e.order with | some m => ordered d ts o m | none => o) := by
  cases e with
  | tick w =>
    rw [h]; simp only [UmacEv.order]
    refine foldl_stays _ _ _ ?_
    intro e he
    split at he <;> simp at he
    · subst he; rfl
    · rcases he with rfl | rfl <;> rfl
  | block c bits =>
    simp only [UmacEv.order]
    refine foldl_stays _ _ _ ?_
    intro e he
    have := h e he
    cases e <;> simp only [RxCall] at this <;> rfl
  | request q =>
    simp only [UmacEv.order]
    rcases h with ⟨t, b, _, rfl⟩ | ⟨p, _, rfl⟩ <;> rfl
  | voiceDown t b => rcases h with rfl | rfl <;> rfl
  | voiceUp t data => rcases h with rfl | ⟨b, _, rfl⟩ <;> rfl
  | control m =>
    simp only [UmacEv.order]
    cases m with
    | «open» c =>
      obtain ⟨k, rfl⟩ := h
      simp only [ordered]
      cases hdir : c.direction <;> rcases hd with rfl | rfl <;> simp only [Dir.split, List.flatMap_cons, List.flatMap_nil] <;>
        cases k .dl <;> cases k .ul <;> by_cases ht : c.ts = ts <;> simp [circuitAfter, ht]
    | close d' t =>
      have h : es = (Dir.split d').map fun d => .close d t := h
      subst h
      simp only [ordered]
      cases d' <;> rcases hd with rfl | rfl <;> by_cases ht : t = ts <;> simp [Dir.split, circuitAfter, ht]
    | released t => have h : es = _ := h; subst h; rfl
    | granted t => have h : es = _ := h; subst h; rfl
    | ended t => have h : es = _ := h; subst h; rfl

/-- What the calls of one event do to the hang state. -/
theorem caused_hang {s : UmacBs} {e : UmacEv} {es : List SchedEv} (h : Caused s e es) (ts : Nat) (b : Bool) :
    es.foldl (hangAfter ts) b = (match e.order with | some m => orderedHang ts b m | none => b) := by
  cases e with
  | tick w =>
    rw [h]; simp only [UmacEv.order]
    refine foldl_stays _ _ _ ?_
    intro e he
    split at he <;> simp at he
    · subst he; rfl
    · rcases he with rfl | rfl <;> rfl
  | block c bits =>
    simp only [UmacEv.order]
    refine foldl_stays _ _ _ ?_
    intro e he
    have := h e he
    cases e <;> simp only [RxCall] at this <;> rfl
  | request q =>
    simp only [UmacEv.order]
    rcases h with ⟨t, b, _, rfl⟩ | ⟨p, _, rfl⟩ <;> rfl
  | voiceDown t b => rcases h with rfl | rfl <;> rfl
  | voiceUp t data => rcases h with rfl | ⟨b, _, rfl⟩ <;> rfl
  | control m =>
    simp only [UmacEv.order]
    cases m with
    | «open» c =>
      obtain ⟨k, rfl⟩ := h
      simp only [orderedHang]
      cases hdir : c.direction <;> simp only [Dir.split, List.flatMap_cons, List.flatMap_nil] <;>
        cases k .dl <;> cases k .ul <;> by_cases ht : c.ts = ts <;> simp [hangAfter, ht]
    | close d' t =>
      have h : es = (Dir.split d').map fun d => .close d t := h
      subst h
      simp only [orderedHang]
      cases d' <;> by_cases ht : t = ts <;> simp [Dir.split, hangAfter, ht]
    | released t => have h : es = _ := h; subst h; rfl
    | granted t => have h : es = _ := h; subst h; rfl
    | ended t => have h : es = _ := h; subst h; rfl

theorem caused_ticks {s : UmacBs} {e : UmacEv} {es : List SchedEv} (h : Caused s e es) :
    ticksIn es = e.isTick.toNat := by
  cases e with
  | tick w => rw [h, ticksIn]; split <;> simp [UmacEv.isTick]
  | block c bits =>
    simp only [ticksIn]
    show _ = 0
    rw [List.countP_eq_zero]
    intro e he
    have := h e he
    cases e <;> simp only [RxCall] at this <;> simp
  | request q => rcases h with ⟨t, b, _, rfl⟩ | ⟨p, _, rfl⟩ <;> rfl
  | voiceDown t b => rcases h with rfl | rfl <;> rfl
  | voiceUp t data => rcases h with rfl | ⟨b, _, rfl⟩ <;> rfl
  | control m =>
    cases m with
    | «open» c =>
      obtain ⟨k, rfl⟩ := h
      cases hdir : c.direction <;> simp only [Dir.split, List.flatMap_cons, List.flatMap_nil] <;>
        cases k .dl <;> cases k .ul <;> simp [ticksIn, UmacEv.isTick]
    | close d' t =>
      have h : es = (Dir.split d').map fun d => .close d t := h
      subst h
      cases d' <;> simp [Dir.split, ticksIn, UmacEv.isTick]
    | released t => have h : es = _ := h; subst h; rfl
    | granted t => have h : es = _ := h; subst h; rfl
    | ended t => have h : es = _ := h; subst h; rfl

/-- The calls made on the scheduler say the same as the orders. -/
theorem run_orders {brew : Bool} {carrier : Nat} {x : Time} {scramb : Nat} {wide : Bool} {pre : Precomps} {s : UmacBs}
    {h : List (UmacEv × List UmacOut)} (hr : UmacRun (.init brew carrier x scramb wide pre) h s) :
    (∀ d, d = .dl ∨ d = .ul → ∀ ts, circuitAt d ts (s.log.map Prod.fst) = circuitBy (orders h) d ts) ∧
    (∀ ts, hangAt ts (s.log.map Prod.fst) = hangBy (orders h) ts) ∧ ticksIn (s.log.map Prod.fst) = slotsIn h := by
  generalize hs0 : UmacBs.init brew carrier x scramb wide pre = s0 at hr
  induction hr with
  | init => subst hs0; exact ⟨fun _ _ _ => rfl, fun _ => rfl, rfl⟩
  | step hr' hst ih =>
    rename_i h s s' e out
    obtain ⟨i1, i2, i3⟩ := ih
    obtain ⟨cs, fs, v, c⟩ := step_via hst
    have ho : orders (h ++ [(e, out)]) = orders h ++ (match e.order with | some m => [m] | none => []) := by
      simp only [orders, List.filterMap_append, List.filterMap_cons, List.filterMap_nil]
      cases e.order <;> rfl
    refine ⟨?_, ?_, ?_⟩
    · intro d hd ts
      rw [v.log, List.map_append, circuitAt, List.foldl_append]
      have := i1 d hd ts
      unfold circuitAt at this
      rw [this, caused_circuit c hd, ho]
      cases e.order with
      | none => simp
      | some m => simp [circuitBy, List.foldl_append]
    · intro ts
      rw [v.log, List.map_append, hangAt, List.foldl_append]
      have := i2 ts
      unfold hangAt at this
      rw [this, caused_hang c, ho]
      cases e.order with
      | none => simp
      | some m => simp [hangBy, List.foldl_append]
    · have ht := caused_ticks c
      simp only [v.log, List.map_append, ticksIn, List.countP_append, slotsIn] at i3 ht ⊢
      rw [i3, ht]
      cases e <;> simp [UmacEv.isTick]

/-- The state of the upper MAC, in terms of the orders. -/
theorem run_ordered {brew : Bool} {carrier : Nat} {x : Time} (hx : x.valid) {scramb : Nat} {wide : Bool} {pre : Precomps} {s : UmacBs}
    {h : List (UmacEv × List UmacOut)} (hr : UmacRun (.init brew carrier x scramb wide pre) h s) (ht : ∀ p ∈ h, p.1.Timed) (i : Fin 4) :
    s.sched.circuits.dl i = circuitBy (orders h) .dl (i.val + 1) ∧ s.sched.circuits.ul i = circuitBy (orders h) .ul (i.val + 1) ∧
    s.sched.hang i = hangBy (orders h) (i.val + 1) ∧ s.now = fromInt (x.toInt + slotsIn h) := by
  have k := run_known hx hr ht
  obtain ⟨o1, o2, o3⟩ := run_orders hr
  refine ⟨?_, ?_, ?_, ?_⟩
  · rw [k.view.dl, o1 _ (.inl rfl)]
  · rw [k.view.ul, o1 _ (.inr rfl)]
  · rw [k.view.hang, o2]
  · rw [k.now, clockAfter_eq, o3]

end Verif.Umac
