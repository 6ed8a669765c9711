import Verif.Umac.UmacCall
import Verif.Cmce.CallShort
/-!
# The orders of call control stay within the tables of the upper MAC: lemmas
-/
namespace Verif.Umac
open Verif.Tdma Verif.Codec Verif.Cmce

/-- An order names a timeslot from 2 to 4; a circuit has a usage marker from 4 to 63; circuits open and close in both directions. -/
def MacCtl.InRange : MacCtl → Prop
  | .open c => c.direction = .both ∧ 2 ≤ c.ts ∧ c.ts ≤ 4 ∧ 4 ≤ c.usage ∧ c.usage < 64
  | .close d ts => d = .both ∧ 2 ≤ ts ∧ ts ≤ 4
  | .granted ts => 2 ≤ ts ∧ ts ≤ 4
  | .released ts => 2 ≤ ts ∧ ts ≤ 4
  | .ended ts => 2 ≤ ts ∧ ts ≤ 4

theorem MgrOk.nextUsage_range {m : Mgr} (h : MgrOk m) : 4 ≤ m.nextUsage ∧ m.nextUsage < 64 := by
  obtain ⟨log, hi⟩ := h.inv
  rw [hi.usage]
  unfold usageOf
  omega

theorem floor_ts {s : Cc} (hi : CcInv s) {id : Nat} {c : Call} (hc : s.calls.get id = some c) : 2 ≤ c.ts ∧ c.ts ≤ 4 := by
  obtain ⟨i, k, hk, hci, _⟩ := hi.circuit id c hc
  have h0 : i.val ≠ 0 := fun e => hi.mgr.ne_zero hk (Fin.ext e)
  omega

theorem prim_inRange {s s' : Cc} {m : Bool} {o : List CcOut} (hi : CcInv s) (hp : Prim s m o s') : ∀ x ∈ macOrders o, x.InRange := by
  cases hp with
  | aside o ha => cases o <;> simp only [CcOut.Aside] at ha <;> simp [macOrders, toMac]
  | members g ls => simp [macOrders]
  | start a i comm k c p h1 h2 h3 h4 h5 h6 h7 h8 h9 h10 h11 =>
    rw [startOut_orders]
    intro x hx
    rw [List.mem_singleton.1 hx, h4]
    have := MgrOk.nextUsage_range hi.mgr
    have h0 : i.val ≠ 0 := fun e => h2 (Fin.ext e)
    exact ⟨rfl, by simp [CmceCircuit.mac]; omega, by simp [CmceCircuit.mac]; omega, this⟩
  | stop id c i cause hc hts =>
    rw [endOut_orders]
    intro x hx
    have := floor_ts hi hc
    simp only [List.mem_cons, List.not_mem_nil, or_false] at hx
    rcases hx with rfl | rfl
    · exact ⟨rfl, this⟩
    · exact this
  | expire i k hk ha =>
    rw [macOrders_append]
    intro x hx
    rcases List.mem_append.1 hx with hx | hx
    · split at hx <;> simp [macOrders, toMac] at hx
    · simp [macOrders, toMac] at hx
      subst hx
      have h0 : i.val ≠ 0 := fun e => hi.mgr.ne_zero hk (Fin.ext e)
      exact ⟨rfl, by omega, by omega⟩
  | cease id c brew net hc htx hb =>
    have := floor_ts hi hc
    intro x hx
    rcases hb with ⟨_, rfl⟩ | ⟨_, rfl⟩
    · rw [macOrders_append] at hx
      rcases List.mem_append.1 hx with hx | hx
      · simp [macOrders, toMac] at hx; subst hx; exact this
      · split at hx <;> simp [macOrders, toMac] at hx
    · simp [macOrders, toMac] at hx; subst hx; exact this
  | grant id c ssi hc htx =>
    have := floor_ts hi hc
    intro x hx
    rw [macOrders_append] at hx
    rcases List.mem_append.1 hx with hx | hx
    · simp [macOrders, toMac] at hx; subst hx; exact this
    · split at hx <;> simp [macOrders, toMac] at hx
  | netGrant id c uuid speaker hc htx =>
    have := floor_ts hi hc
    intro x hx
    simp [macOrders, toMac] at hx; subst hx; exact this
  | announce i k c p => simp [macOrders, toMac]

/-- Every order call control gives is within range, whatever the history. -/
theorem ccRun_inRange {r : Nat → Bool} {h : List (CcEv × List CcOut)} {s : Cc} (hr : CcRun r h s) : ∀ x ∈ macOrders (messages h), x.InRange := by
  refine run_induct (P := fun l _ => ∀ x ∈ macOrders l, x.InRange) (by simp [macOrders]) (fun _ _ _ h => h) (fun _ _ _ h => h) ?_
    (fun _ _ _ _ h _ => h) hr
  intro l s o s' hi h hp x hx
  rw [macOrders_append] at hx
  rcases List.mem_append.1 hx with hx | hx
  · exact h x hx
  · exact prim_inRange hi hp x hx

end Verif.Umac
