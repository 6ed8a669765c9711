import Verif.Umac.UmacWatch
import Verif.Cmce.CallProps
import Verif.Cmce.CallFloorProps
/-!
# The orders call control gives the upper MAC: lemmas
-/
namespace Verif.Umac
open Verif.Tdma Verif.Codec Verif.Cmce

/-- The order a message of call control is for the upper MAC, if it goes there (umac_bs.rs:1482-1527). -/
def toMac : CcOut → Option MacCtl
  | .open c => some (.open c)
  | .close d ts => some (.close d ts)
  | .macGranted _ _ _ ts => some (.granted ts)
  | .macReleased _ ts => some (.released ts)
  | .macEnded _ ts => some (.ended ts)
  | _ => none

/-- The orders among the messages of call control. -/
def macOrders (l : List CcOut) : List MacCtl := l.filterMap toMac

theorem macOrders_append (a b : List CcOut) : macOrders (a ++ b) = macOrders a ++ macOrders b := by simp [macOrders]

theorem circuitBy_append (a b : List MacCtl) (d : Dir) (ts : Nat) : circuitBy (a ++ b) d ts = b.foldl (ordered d ts) (circuitBy a d ts) := by
  simp [circuitBy, List.foldl_append]

theorem hangBy_append (a b : List MacCtl) (ts : Nat) : hangBy (a ++ b) ts = b.foldl (orderedHang ts) (hangBy a ts) := by
  simp [hangBy, List.foldl_append]

theorem startOut_orders (r : Nat → Bool) (k : CmceCircuit) (c : Call) : macOrders (startOut r k c) = [.open k.mac] := by
  unfold startOut
  split
  · split <;> rfl
  · rfl

theorem endOut_orders (r : Nat → Bool) (id : Nat) (c : Call) (cause : Cause) :
    macOrders (endOut r id c cause) = [.close .both c.ts, .ended c.ts] := by
  unfold endOut
  split
  · split <;> rfl
  · rfl

/-- The circuits and hang times the orders give are those of call control. -/
structure Agrees (l : List CcOut) (s : Cc) : Prop where
  circuit : ∀ (i : Fin 4) d, d = .dl ∨ d = .ul → circuitBy (macOrders l) d (i.val + 1) = (s.mgr.dl i).map fun k => { k.mac with direction := d }
  free : ∀ i : Fin 4, s.mgr.dl i = none → hangBy (macOrders l) (i.val + 1) = false
  hang : ∀ (i : Fin 4) k c, s.mgr.dl i = some k → s.calls.get k.callId = some c → c.ts = i.val + 1 → hangBy (macOrders l) (i.val + 1) = !c.tx
  both : ∀ m ∈ macOrders l, m.Both

/-- Steps which give no orders and leave circuits and floors alone. -/
theorem Agrees.same {l o : List CcOut} {s s' : Cc} (h : Agrees l s) (ho : macOrders o = []) (h1 : s'.mgr = s.mgr)
    (h2 : ∀ id, s'.calls.get id = s.calls.get id) : Agrees (l ++ o) s' := by
  refine ⟨?_, ?_, ?_, ?_⟩ <;> rw [macOrders_append, ho, List.append_nil]
  · intro i d hd; rw [h1]; exact h.circuit i d hd
  · intro i; rw [h1]; exact h.free i
  · intro i k c; rw [h1, h2]; exact h.hang i k c
  · exact h.both

/-- A circuit is opened. -/
theorem Agrees.opened {l o : List CcOut} {s : Cc} (h : Agrees l s) {i : Fin 4} {k : CmceCircuit} (c : Call) (a : TsAlloc.Alloc) (p : Assoc Nat Setup)
    (ho : macOrders o = [.open k.mac]) (hk : k.ts = i.val + 1) (hb : k.direction = .both) (hts : c.ts = i.val + 1) (htx : c.tx = true) :
    Agrees (l ++ o) { s with alloc := a, mgr := s.mgr.opened i k, setups := p, calls := s.calls.insert k.callId c } := by
  refine ⟨?_, ?_, ?_, ?_⟩ <;> rw [macOrders_append, ho]
  · intro j d hd
    rw [circuitBy_append]
    simp only [List.foldl_cons, List.foldl_nil, ordered, CmceCircuit.mac, hk, hb, Mgr.opened]
    by_cases e : j = i
    · subst e
      rw [if_pos ⟨rfl, by simp⟩, Slots.upd_self]; simp [hk]
    · rw [if_neg (fun hh => e (Fin.ext (by omega))), Slots.upd_ne _ _ e, h.circuit j d hd]; rfl
  · intro j hj
    rw [hangBy_append]
    simp only [List.foldl_cons, List.foldl_nil, orderedHang, CmceCircuit.mac, hk, hb]
    by_cases e : j = i
    · subst e; simp
    · rw [if_neg (fun hh => e (Fin.ext (by omega)))]
      simp only [Mgr.opened, Slots.upd_ne _ _ e] at hj
      exact h.free j hj
  · intro j k' c' hj hc hts'
    rw [hangBy_append]
    simp only [List.foldl_cons, List.foldl_nil, orderedHang, CmceCircuit.mac, hk, hb]
    by_cases e : j = i
    · subst e
      simp only [Mgr.opened, Slots.upd_self, Option.some.injEq] at hj
      subst hj
      simp only [Assoc.get_insert, if_true, Option.some.injEq] at hc
      subst hc
      simp [htx]
    · rw [if_neg (fun hh => e (Fin.ext (by omega)))]
      simp only [Mgr.opened, Slots.upd_ne _ _ e] at hj
      simp only [Assoc.get_insert] at hc
      split at hc
      · cases hc; exact absurd (Fin.ext (by omega)) e
      · exact h.hang j k' c' hj hc hts'
  · intro m hm
    rcases List.mem_append.1 hm with hm | hm
    · exact h.both m hm
    · rw [List.mem_singleton.1 hm]
      exact hb

/-- A circuit is closed, maybe with the end of the call said. -/
theorem Agrees.closed {l o : List CcOut} {s : Cc} (h : Agrees l s) {i : Fin 4} (id : Nat) (a : TsAlloc.Alloc) (p : Assoc Nat Setup)
    (ho : macOrders o = [.close .both (i.val + 1)] ∨ macOrders o = [.close .both (i.val + 1), .ended (i.val + 1)]) :
    Agrees (l ++ o) { s with mgr := s.mgr.closed i, alloc := a, setups := p, calls := s.calls.erase id } := by
  have hcirc : ∀ (j : Fin 4) d, d = .dl ∨ d = .ul → ∀ x, (macOrders o).foldl (ordered d (j.val + 1)) x = if j = i then none else x := by
    intro j d hd x
    by_cases e : j = i
    · subst e
      rcases ho with ho | ho <;> rw [ho] <;> simp [ordered]
    · have : ¬ i.val + 1 = j.val + 1 := fun hh => e (Fin.ext (by omega))
      rcases ho with ho | ho <;> rw [ho] <;> simp only [List.foldl_cons, List.foldl_nil, ordered, this, e, false_and, if_false]
  have hhang : ∀ (j : Fin 4) x, (macOrders o).foldl (orderedHang (j.val + 1)) x = if j = i then false else x := by
    intro j x
    by_cases e : j = i
    · subst e
      rcases ho with ho | ho <;> rw [ho] <;> simp [orderedHang]
    · have : ¬ i.val + 1 = j.val + 1 := fun hh => e (Fin.ext (by omega))
      rcases ho with ho | ho <;> rw [ho] <;> simp only [List.foldl_cons, List.foldl_nil, orderedHang, this, e, false_and, if_false]
  refine ⟨?_, ?_, ?_, ?_⟩ <;> rw [macOrders_append]
  · intro j d hd
    rw [circuitBy_append, hcirc j d hd]
    by_cases e : j = i
    · subst e; simp [Mgr.closed]
    · rw [if_neg e, h.circuit j d hd]; simp only [Mgr.closed, Slots.upd_ne _ _ e]
  · intro j hj
    rw [hangBy_append, hhang]
    by_cases e : j = i
    · rw [if_pos e]
    · rw [if_neg e]
      simp only [Mgr.closed, Slots.upd_ne _ _ e] at hj
      exact h.free j hj
  · intro j k c hj hc hts
    rw [hangBy_append, hhang]
    by_cases e : j = i
    · subst e; simp [Mgr.closed] at hj
    · rw [if_neg e]
      simp only [Mgr.closed, Slots.upd_ne _ _ e] at hj
      simp only [Assoc.get_erase] at hc
      split at hc
      · cases hc
      · exact h.hang j k c hj hc hts
  · intro m hm
    rcases List.mem_append.1 hm with hm | hm
    · exact h.both m hm
    · rcases ho with ho | ho <;> rw [ho] at hm <;> simp at hm
      · rw [hm]; rfl
      · rcases hm with hm | hm <;> rw [hm]
        · rfl
        · trivial

/-- The floor is given up or granted. -/
theorem Agrees.floor {l o : List CcOut} {s : Cc} (hi : CcInv s) (h : Agrees l s) {id : Nat} {c : Call} (hc : s.calls.get id = some c) (c' : Call)
    (ho : macOrders o = [if c'.tx then .granted c.ts else .released c.ts]) (hts : c'.ts = c.ts) :
    Agrees (l ++ o) { s with calls := s.calls.insert id c' } := by
  obtain ⟨i, k, hk, hci, hid, _⟩ := hi.circuit id c hc
  have hcirc : ∀ ts d x, (macOrders o).foldl (ordered d ts) x = x := by
    intro ts d x
    rw [ho]; cases c'.tx <;> rfl
  have hhang : ∀ (j : Fin 4) x, (macOrders o).foldl (orderedHang (j.val + 1)) x = if j = i then !c'.tx else x := by
    intro j x
    rw [ho]
    by_cases e : j = i
    · subst e; cases c'.tx <;> simp [orderedHang, hci]
    · have : ¬ c.ts = j.val + 1 := fun hh => e (Fin.ext (by omega))
      cases c'.tx <;> simp [orderedHang, this, e]
  refine ⟨?_, ?_, ?_, ?_⟩ <;> rw [macOrders_append]
  · intro j d hd
    rw [circuitBy_append, hcirc]; exact h.circuit j d hd
  · intro j hj
    rw [hangBy_append, hhang]
    by_cases e : j = i
    · subst e; simp only at hj; rw [hk] at hj; cases hj
    · rw [if_neg e]; exact h.free j hj
  · intro j k' c'' hj hc'' hts''
    rw [hangBy_append, hhang]
    simp only [Assoc.get_insert] at hc''
    by_cases e : j = i
    · subst e
      simp only at hj
      rw [hk] at hj; cases hj
      rw [if_pos hid.symm] at hc''
      cases hc''
      simp
    · rw [if_neg e]
      split at hc''
      · cases hc''; exact absurd (Fin.ext (by omega)) e
      · exact h.hang j k' c'' hj hc'' hts''
  · intro m hm
    rcases List.mem_append.1 hm with hm | hm
    · exact h.both m hm
    · rw [ho] at hm
      rw [List.mem_singleton.1 hm]
      cases c'.tx <;> trivial

theorem Agrees.prim {l o : List CcOut} {s s' : Cc} {m : Bool} (hi : CcInv s) (h : Agrees l s) (hp : Prim s m o s') : Agrees (l ++ o) s' := by
  cases hp with
  | aside o ha =>
    refine h.same ?_ rfl (fun _ => rfl)
    cases o <;> simp only [CcOut.Aside] at ha <;> rfl
  | members g ls => exact h.same rfl rfl (fun _ => rfl)
  | start a i comm k c p h1 h2 h3 h4 h5 h6 h7 h8 h9 h10 h11 =>
    exact h.opened c a _ (startOut_orders _ _ _) (by rw [h4]) (by rw [h4]) h6 h8
  | stop id c i cause h1 h2 =>
    exact h.closed id _ _ (.inr (by rw [endOut_orders, h2]))
  | expire i k h1 h2 =>
    refine h.closed k.callId _ _ (.inl ?_)
    rw [macOrders_append]
    split <;> rfl
  | cease id c b n h1 h2 h3 =>
    refine h.floor hi h1 _ ?_ rfl
    rw [macOrders_append]
    rcases h3 with ⟨_, rfl⟩ | ⟨_, rfl⟩
    · split <;> rfl
    · rfl
  | grant id c ssi h1 h2 =>
    refine h.floor hi h1 _ ?_ rfl
    rw [macOrders_append]
    split <;> rfl
  | netGrant id c u sp h1 h2 => exact h.floor hi h1 _ rfl rfl
  | announce i k c p h1 h2 h3 h4 => exact h.same rfl rfl (fun _ => rfl)

theorem ccRun_agrees {r : Nat → Bool} {h : List (CcEv × List CcOut)} {s : Cc} (hr : CcRun r h s) : Agrees (messages h) s := by
  refine run_induct (P := Agrees) ?_ ?_ ?_ ?_ ?_ hr
  · exact ⟨fun _ _ _ => rfl, fun _ _ => rfl, fun i k c hk => by simp [Cc.init, Mgr.init] at hk, by simp [macOrders]⟩
  · intro l s now h
    have := h.same (o := []) (s' := s.clock now) rfl rfl (fun _ => rfl)
    rwa [List.append_nil] at this
  · intro l s now h
    exact ⟨h.circuit, h.free, h.hang, h.both⟩
  · intro l s o s' hi h hp
    exact h.prim hi hp
  · rintro l s s' hi h ⟨calls', f, hp, hf, rfl⟩
    have hg := get_perm hp hi.ok
    have := h.same (o := []) (s' := { s with calls := calls', groups := s.groups.map fun e => (e.1, f e.1 e.2) }) rfl rfl hg
    rwa [List.append_nil] at this

end Verif.Umac
