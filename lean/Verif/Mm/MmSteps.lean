import Verif.Mm.MmSpec
import Verif.Config.RegistryProps
/-!
# Mobility management: lemmas
-/
namespace Verif.Mm
open Verif.Bits Verif.Codec Verif.TypedFields Verif.Config Verif.Cmce

/-! ## Everything others know, at once -/

structure World where
  aff : Nat → Nat → Bool
  reg : Nat → Bool
  baff : Nat → Nat → Bool
  breg : Nat → Bool
  tatt : Nat → Nat → Bool
  treg : Nat → Bool

def World.start : World := ⟨fun _ _ => false, fun _ => false, fun _ _ => false, fun _ => false, fun _ _ => false, fun _ => false⟩

def World.after (w : World) : MmOut → World
  | .cmce u => { w with aff := affiliatedAfter w.aff u, reg := registeredAfter w.reg u }
  | .brew u => { w with baff := affiliatedAfter w.baff u, breg := registeredAfter w.breg u }
  | .telemetry e => { w with tatt := telAttachedAfter w.tatt e, treg := telRegisteredAfter w.treg e }
  | .answer _ _ _ => w

theorem world_eq (out : List MmOut) (w : World) : out.foldl World.after w =
    ⟨(toCmce out).foldl affiliatedAfter w.aff, (toCmce out).foldl registeredAfter w.reg,
      (toBrew out).foldl affiliatedAfter w.baff, (toBrew out).foldl registeredAfter w.breg,
      (toTelemetry out).foldl telAttachedAfter w.tatt, (toTelemetry out).foldl telRegisteredAfter w.treg⟩ := by
  induction out generalizing w with
  | nil => rfl
  | cons o out ih =>
    rw [List.foldl_cons, ih]
    cases o <;> rfl

/-- What holds between mobility management and the others after every history. -/
structure Fits (c : Brew.Cfg) (s : Mm) (w : World) : Prop where
  ops : ∃ ops, Registry.Inv s.registry ops
  same : ∀ i, s.registry.subscribers.get i = s.clients.get i
  below : ∀ i g, w.aff i g = true → s.attached i g = true
  reg : ∀ i, w.reg i = s.known i
  baff : Brew.isActive c = true → ∀ i g, w.baff i g = (w.aff i g && Brew.gssiRoutable c g)
  breg : Brew.isActive c = true → ∀ i, w.breg i = (s.known i && Brew.issiRoutable c i)
  above : ∀ i g, s.attached i g = true → w.tatt i g = true
  treg : ∀ i, w.treg i = s.known i

/-- Call control knows exactly the groups held. -/
def Exact (s : Mm) (w : World) : Prop := ∀ i g, w.aff i g = s.attached i g

theorem fits_start (c : Brew.Cfg) : Fits c Mm.new World.start := by
  refine ⟨⟨[], ⟨Assoc.ok_nil, ?_, ?_, ?_⟩⟩, fun _ => rfl, ?_, fun _ => rfl, fun _ _ _ => rfl, fun _ _ => rfl, ?_, fun _ => rfl⟩
  · intro i; simp [Mm.new, Registry.new, Spec.Registered]
  · intro i g; simp [Mm.new, Registry.new, Registry.groupsOf, Spec.Attached]
  · intro g; simp [Mm.new, Registry.new]
  · intro i g h; simp [World.start] at h
  · intro i g h; simp [Mm.attached, Mm.groups, Mm.new] at h

/-! ## Sending updates -/

theorem emit_aff (c : Brew.Cfg) (u : SubUpdate) (w : World) : ((emit c u).foldl World.after w).aff = affiliatedAfter w.aff u := by
  unfold emit
  rw [List.foldl_append]
  by_cases ha : Brew.isActive c = true
  · rw [if_pos ha]
    cases u with
    | register i => simp only; split <;> rfl
    | deregister i => simp only; split <;> rfl
    | affiliate i gs => simp only; split <;> rfl
    | deaffiliate i gs => simp only; split <;> rfl
  · rw [if_neg ha]; rfl

theorem emit_reg (c : Brew.Cfg) (u : SubUpdate) (w : World) : ((emit c u).foldl World.after w).reg = registeredAfter w.reg u := by
  unfold emit
  rw [List.foldl_append]
  by_cases ha : Brew.isActive c = true
  · rw [if_pos ha]
    cases u with
    | register i => simp only; split <;> rfl
    | deregister i => simp only; split <;> rfl
    | affiliate i gs => simp only; split <;> rfl
    | deaffiliate i gs => simp only; split <;> rfl
  · rw [if_neg ha]; rfl

theorem emit_tel (c : Brew.Cfg) (u : SubUpdate) (w : World) :
    ((emit c u).foldl World.after w).tatt = w.tatt ∧ ((emit c u).foldl World.after w).treg = w.treg := by
  unfold emit
  rw [List.foldl_append]
  by_cases ha : Brew.isActive c = true
  · rw [if_pos ha]
    cases u with
    | register i => simp only; split <;> exact ⟨rfl, rfl⟩
    | deregister i => simp only; split <;> exact ⟨rfl, rfl⟩
    | affiliate i gs => simp only; split <;> exact ⟨rfl, rfl⟩
    | deaffiliate i gs => simp only; split <;> exact ⟨rfl, rfl⟩
  · rw [if_neg ha]; exact ⟨rfl, rfl⟩

/-- The routable part of an update arrives at the backhaul. -/
theorem emit_baff {c : Brew.Cfg} (ha : Brew.isActive c = true) (u : SubUpdate) (w : World)
    (h : ∀ i g, w.baff i g = (w.aff i g && Brew.gssiRoutable c g))
    (hd : ∀ i, u = .deregister i → ∀ g, w.aff i g = false) (i g : Nat) :
    ((emit c u).foldl World.after w).baff i g = (((emit c u).foldl World.after w).aff i g && Brew.gssiRoutable c g) := by
  rw [emit_aff]
  unfold emit
  rw [List.foldl_append, if_pos ha]
  cases u with
  | register j => simp only; split <;> exact h i g
  | deregister j =>
    have hz := hd j rfl
    have hb : ∀ g, w.baff j g = false := fun g => by rw [h, hz]; rfl
    simp only; split
    · simp only [List.foldl_cons, List.foldl_nil, World.after, affiliatedAfter]
      split
      · simp
      · exact h i g
    · simp only [List.foldl_cons, List.foldl_nil, World.after, affiliatedAfter]
      split
      · rename_i e; subst e; simp [hb]
      · exact h i g
  | affiliate j gs =>
    simp only
    split
    · rename_i he
      simp only [List.isEmpty_iff, List.filter_eq_nil_iff] at he
      simp only [List.foldl_cons, List.foldl_nil, World.after, affiliatedAfter]
      split
      · rename_i hm
        have := he g hm.2
        rw [h]; simp [this]
      · exact h i g
    · simp only [List.foldl_cons, List.foldl_nil, World.after, affiliatedAfter, List.mem_filter]
      by_cases hr : Brew.gssiRoutable c g = true
      · simp only [hr, and_true, Bool.and_true]; rw [h]; simp [hr]
      · simp only [hr, Bool.false_eq_true, and_false, if_false, Bool.and_false]; rw [h]; simp [hr]
  | deaffiliate j gs =>
    simp only
    split
    · rename_i he
      simp only [List.isEmpty_iff, List.filter_eq_nil_iff] at he
      simp only [List.foldl_cons, List.foldl_nil, World.after, affiliatedAfter]
      split
      · rename_i hm
        have := he g hm.2
        rw [h]; simp [this]
      · exact h i g
    · simp only [List.foldl_cons, List.foldl_nil, World.after, affiliatedAfter, List.mem_filter]
      by_cases hr : Brew.gssiRoutable c g = true
      · simp only [hr, and_true, Bool.and_true]; rw [h]; simp [hr]
      · simp only [hr, Bool.false_eq_true, and_false, if_false, Bool.and_false]; rw [h]; simp [hr]

theorem emit_breg {c : Brew.Cfg} (ha : Brew.isActive c = true) (u : SubUpdate) (w : World) {k : Nat → Bool}
    (h : ∀ i, w.breg i = (k i && Brew.issiRoutable c i)) (i : Nat) :
    ((emit c u).foldl World.after w).breg i = (registeredAfter k u i && Brew.issiRoutable c i) := by
  unfold emit
  rw [List.foldl_append, if_pos ha]
  cases u with
  | register j =>
    simp only
    split
    · rename_i hr
      simp only [List.foldl_cons, List.foldl_nil, World.after, registeredAfter]
      split
      · rename_i e; subst e; simp [hr]
      · exact h i
    · rename_i hr
      simp only [List.foldl_cons, List.foldl_nil, World.after, registeredAfter]
      split
      · rename_i e; subst e; rw [h]; simp [hr]
      · exact h i
  | deregister j =>
    simp only
    split
    · rename_i hr
      simp only [List.foldl_cons, List.foldl_nil, World.after, registeredAfter]
      split
      · simp
      · exact h i
    · rename_i hr
      simp only [List.foldl_cons, List.foldl_nil, World.after, registeredAfter]
      split
      · rename_i e; subst e; rw [h]; simp [hr]
      · exact h i
  | affiliate j gs => simp only; split <;> exact h i
  | deaffiliate j gs => simp only; split <;> exact h i

/-- Sending a list of groups, or nothing when it is empty, comes to the same for everybody who only counts. -/
theorem emitGroups_aff (c : Brew.Cfg) (i : Nat) (gs : List Nat) (w : World) :
    ((emitGroups c (.affiliate i) gs).foldl World.after w).aff = affiliatedAfter w.aff (.affiliate i gs) ∧
    ((emitGroups c (.deaffiliate i) gs).foldl World.after w).aff = affiliatedAfter w.aff (.deaffiliate i gs) := by
  unfold emitGroups
  cases gs with
  | nil => constructor <;> (funext j g; simp [affiliatedAfter])
  | cons g gs => exact ⟨emit_aff c (.affiliate i (g :: gs)) w, emit_aff c (.deaffiliate i (g :: gs)) w⟩

theorem emitGroups_other (c : Brew.Cfg) (u : List Nat → SubUpdate) (hu : ∀ k gs, registeredAfter k (u gs) = k) (gs : List Nat) (w : World) :
    ((emitGroups c u gs).foldl World.after w).reg = w.reg ∧ ((emitGroups c u gs).foldl World.after w).tatt = w.tatt ∧
    ((emitGroups c u gs).foldl World.after w).treg = w.treg := by
  unfold emitGroups
  split
  · exact ⟨rfl, rfl, rfl⟩
  · exact ⟨by rw [emit_reg, hu], emit_tel _ _ _⟩

theorem emitGroups_brew {c : Brew.Cfg} (ha : Brew.isActive c = true) (u : List Nat → SubUpdate) (hu : ∀ k gs, registeredAfter k (u gs) = k)
    (hn : ∀ i gs, u gs ≠ .deregister i) (gs : List Nat) (w : World) {k : Nat → Bool}
    (h1 : ∀ i g, w.baff i g = (w.aff i g && Brew.gssiRoutable c g)) (h2 : ∀ i, w.breg i = (k i && Brew.issiRoutable c i)) :
    (∀ i g, ((emitGroups c u gs).foldl World.after w).baff i g = (((emitGroups c u gs).foldl World.after w).aff i g && Brew.gssiRoutable c g)) ∧
    (∀ i, ((emitGroups c u gs).foldl World.after w).breg i = (k i && Brew.issiRoutable c i)) := by
  unfold emitGroups
  split
  · exact ⟨h1, h2⟩
  · refine ⟨emit_baff ha _ _ h1 (fun i e => (hn i gs e).elim), fun i => ?_⟩
    rw [emit_breg ha _ _ h2, hu]

/-! ## The registry -/

theorem deregister_get (r : Registry) (j i : Nat) :
    (r.deregister j).subscribers.get i = if j = i then none else r.subscribers.get i := by
  unfold Registry.deregister
  cases hg : r.subscribers.get j with
  | none => simp only; split
            · rename_i e; subst e; exact hg
            · rfl
  | some gs => simp only [Assoc.get_erase]

theorem register_get (r : Registry) (j i : Nat) :
    (r.register j).subscribers.get i = if j = i then some [] else r.subscribers.get i := by
  simp only [Registry.register, Assoc.get_insert, deregister_get]
  split <;> simp_all

theorem affiliate_get (r : Registry) (j k i : Nat) :
    (r.affiliate j k).subscribers.get i = if j = i then some (Registry.setInsert (r.groupsOf j) k) else r.subscribers.get i := by
  simp only [Registry.affiliate, Registry.ensure_groups, Assoc.get_insert, Registry.ensure_get]
  by_cases h : j = i
  · simp [h]
  · simp [h, Ne.symm h]

theorem setRemove_of_not_mem {l : List Nat} {k : Nat} (h : l.contains k = false) : Registry.setRemove l k = l := by
  unfold Registry.setRemove
  rw [List.filter_eq_self]
  intro a ha
  have : ¬ k ∈ l := by simpa using h
  simpa using fun e : a = k => this (e ▸ ha)

theorem deaffiliate_get (r : Registry) (j k i : Nat) :
    (r.deaffiliate j k).subscribers.get i = if j = i then some (Registry.setRemove (r.groupsOf j) k) else r.subscribers.get i := by
  simp only [Registry.deaffiliate, Registry.ensure_groups]
  split
  · simp only [Assoc.get_insert, Registry.ensure_get]
    by_cases h : j = i
    · simp [h]
    · simp [h, Ne.symm h]
  · rename_i hc
    rw [setRemove_of_not_mem (by simpa using hc), Registry.ensure_get]
    by_cases h : j = i
    · simp [h]
    · simp [h, Ne.symm h]

theorem known_eq {s : Mm} {i : Nat} {gs : List Nat} (h : s.clients.get i = some gs) : s.known i = true := by simp [Mm.known, h]

/-! ## The single actions -/

theorem fits_addClient {c : Brew.Cfg} {s : Mm} {w : World} (h : Fits c s w) {j : Nat} (hk : s.clients.get j = none) :
    Fits c (s.addClient c j).1 ((s.addClient c j).2.foldl World.after w) ∧
    (Exact s w → Exact (s.addClient c j).1 ((s.addClient c j).2.foldl World.after w)) := by
  simp only [Mm.addClient, List.foldl_cons]
  have hget : ∀ i, ((s.clients.erase j).insert j []).get i = if j = i then some [] else s.clients.get i := by
    intro i; simp only [Assoc.get_insert, Assoc.get_erase]; split <;> simp_all
  have hkn : ∀ i, Mm.known ⟨(s.clients.erase j).insert j [], s.registry.register j⟩ i = if i = j then true else s.known i := by
    intro i; simp only [Mm.known, hget]
    by_cases e : j = i
    · simp [e]
    · simp [e, Ne.symm e]
  have hat : ∀ i g, Mm.attached ⟨(s.clients.erase j).insert j [], s.registry.register j⟩ i g = s.attached i g := by
    intro i g; simp only [Mm.attached, Mm.groups, hget]
    split
    · rename_i e; subst e; simp [hk]
    · rfl
  have hw := emit_tel c (.register j) (w.after (.telemetry (.registration j)))
  refine ⟨⟨?_, ?_, ?_, ?_, ?_, ?_, ?_, ?_⟩, ?_⟩
  · obtain ⟨ops, ho⟩ := h.ops
    exact ⟨_, Registry.inv_register ho j⟩
  · intro i
    simp only [register_get, hget, h.same]
  · intro i g
    rw [emit_aff, hat]
    exact h.below i g
  · intro i
    rw [emit_reg, hkn]
    simp only [registeredAfter, World.after, h.reg]
  · intro ha
    exact emit_baff ha _ _ (h.baff ha) (fun i e => by cases e)
  · intro ha i
    rw [emit_breg ha _ (w.after (.telemetry (.registration j))) (h.breg ha) i, hkn]
    simp only [registeredAfter]
  · intro i g hg
    rw [hw.1]
    rw [hat] at hg
    exact h.above i g hg
  · intro i
    rw [hw.2, hkn]
    simp only [World.after, telRegisteredAfter, h.treg]
  · intro he i g
    rw [emit_aff, hat]
    exact he i g

theorem fits_itsiDetach {c : Brew.Cfg} {s : Mm} {w : World} (h : Fits c s w) (j : Nat) :
    Fits c (s.itsiDetach c j).1 ((s.itsiDetach c j).2.foldl World.after w) ∧
    (Exact s w → Exact (s.itsiDetach c j).1 ((s.itsiDetach c j).2.foldl World.after w)) := by
  unfold Mm.itsiDetach
  cases hg : s.clients.get j with
  | none => exact ⟨h, id⟩
  | some gs =>
    simp only [List.foldl_cons, List.foldl_append]
    have hkn : ∀ i, Mm.known ⟨s.clients.erase j, s.registry.deregister j⟩ i = if i = j then false else s.known i := by
      intro i; simp only [Mm.known, Assoc.get_erase]
      by_cases e : j = i
      · simp [e]
      · simp [e, Ne.symm e]
    have hat : ∀ i g, Mm.attached ⟨s.clients.erase j, s.registry.deregister j⟩ i g = if i = j then false else s.attached i g := by
      intro i g; simp only [Mm.attached, Mm.groups, Assoc.get_erase]
      by_cases e : j = i
      · simp [e]
      · simp [e, Ne.symm e]
    have hu : ∀ (k : Nat → Bool) (gs : List Nat), registeredAfter k (.deaffiliate j gs) = k := fun _ _ => rfl
    have h1 := emitGroups_other c (.deaffiliate j) hu gs (w.after (.telemetry (.deregistration j)))
    have h2 := (emitGroups_aff c j gs (w.after (.telemetry (.deregistration j)))).2
    have h3 := emit_tel c (.deregister j) (List.foldl World.after (w.after (.telemetry (.deregistration j))) (emitGroups c (.deaffiliate j) gs))
    have haff : ∀ i g, (List.foldl World.after (List.foldl World.after (w.after (.telemetry (.deregistration j)))
        (emitGroups c (.deaffiliate j) gs)) (emit c (.deregister j))).aff i g = if i = j then false else w.aff i g := by
      intro i g
      rw [emit_aff, h2]
      simp only [affiliatedAfter, World.after]
      by_cases e : i = j <;> simp [e]
    refine ⟨⟨?_, ?_, ?_, ?_, ?_, ?_, ?_, ?_⟩, ?_⟩
    · obtain ⟨ops, ho⟩ := h.ops
      exact ⟨_, Registry.inv_deregister ho j⟩
    · intro i
      simp only [deregister_get, Assoc.get_erase, h.same]
    · intro i g
      rw [haff, hat]
      split
      · exact id
      · exact h.below i g
    · intro i
      rw [emit_reg, h1.1, hkn]
      simp only [registeredAfter, World.after, h.reg]
    · intro ha
      have hb := emitGroups_brew ha (.deaffiliate j) hu (fun i gs e => by cases e) gs (w.after (.telemetry (.deregistration j)))
        (h.baff ha) (h.breg ha)
      refine emit_baff ha _ _ hb.1 ?_
      intro i e g
      cases e
      rw [h2]
      simp only [affiliatedAfter, World.after]
      split
      · rfl
      · rename_i hn
        cases hx : w.aff j g with
        | false => rfl
        | true =>
          exfalso; apply hn
          have := h.below j g hx
          simp only [Mm.attached, Mm.groups, hg, Option.getD_some, List.contains_iff_mem] at this
          first | exact ⟨rfl, this⟩ | exact ⟨trivial, this⟩
    · intro ha i
      have hb := emitGroups_brew ha (.deaffiliate j) hu (fun i gs e => by cases e) gs (w.after (.telemetry (.deregistration j)))
        (h.baff ha) (h.breg ha)
      rw [emit_breg ha _ _ hb.2 i, hkn]
      simp only [registeredAfter]
    · intro i g hq
      rw [h3.1, h1.2.1]
      rw [hat] at hq
      simp only [World.after, telAttachedAfter]
      split at hq
      · cases hq
      · rename_i e; rw [if_neg e]; exact h.above i g hq
    · intro i
      rw [h3.2, h1.2.2, hkn]
      simp only [World.after, telRegisteredAfter, h.treg]
    · intro he i g
      rw [haff, hat]
      split
      · rfl
      · exact he i g

theorem deaffiliateAll_get (gs : List Nat) (r : Registry) (j i : Nat) :
    ∀ i, (gs.foldl (fun r g => r.deaffiliate j g) r).subscribers.get i =
      if j = i ∧ gs ≠ [] then some ((r.groupsOf j).filter fun g => !gs.contains g) else r.subscribers.get i := by
  induction gs generalizing r with
  | nil => intro i; simp
  | cons g gs ih =>
    intro i
    rw [List.foldl_cons, ih]
    have hgr : (r.deaffiliate j g).groupsOf j = Registry.setRemove (r.groupsOf j) g := by
      simp [Registry.groupsOf, deaffiliate_get]
    by_cases e : j = i
    · subst e
      by_cases hn : gs = []
      · subst hn
        simp [deaffiliate_get, Registry.setRemove]
      · simp only [hn, ne_eq, not_false_eq_true, and_true, if_true, hgr, reduceCtorEq, Option.some.injEq, Registry.setRemove, List.filter_filter]
        apply List.filter_congr
        intro a ha
        by_cases q : a = g <;> simp [q]
    · simp [e, deaffiliate_get]

theorem fits_startOver {c : Brew.Cfg} {s : Mm} {w : World} (h : Fits c s w) (j : Nat) :
    Fits c (s.startOver c j).1 ((s.startOver c j).2.foldl World.after w) ∧
    (Exact s w → Exact (s.startOver c j).1 ((s.startOver c j).2.foldl World.after w)) := by
  unfold Mm.startOver
  cases hg : s.clients.get j with
  | none => exact fits_addClient h hg
  | some gs =>
    simp only [List.foldl_cons]
    have hkn : ∀ r i, Mm.known ⟨s.clients.insert j [], r⟩ i = s.known i := by
      intro r i; simp only [Mm.known, Assoc.get_insert]
      split
      · rename_i e; subst e; simp [hg]
      · rfl
    have hat : ∀ r i g, Mm.attached ⟨s.clients.insert j [], r⟩ i g = if i = j then false else s.attached i g := by
      intro r i g; simp only [Mm.attached, Mm.groups, Assoc.get_insert]
      by_cases e : j = i
      · simp [e]
      · simp [e, Ne.symm e]
    have hu : ∀ (k : Nat → Bool) (gs : List Nat), registeredAfter k (.deaffiliate j gs) = k := fun _ _ => rfl
    have h1 := emitGroups_other c (.deaffiliate j) hu gs (w.after (.telemetry (.groupDetach j gs)))
    have h2 := (emitGroups_aff c j gs (w.after (.telemetry (.groupDetach j gs)))).2
    have hin : ∀ g, s.attached j g = true → g ∈ gs := by
      intro g hx
      simpa only [Mm.attached, Mm.groups, hg, Option.getD_some, List.contains_iff_mem] using hx
    refine ⟨⟨?_, ?_, ?_, ?_, ?_, ?_, ?_, ?_⟩, ?_⟩
    · obtain ⟨ops, ho⟩ := h.ops
      clear h1 h2 hin hg hkn hat
      generalize hr : s.registry = r at ho
      clear h hr
      induction gs generalizing r ops with
      | nil => exact ⟨_, ho⟩
      | cons g gs ih => exact ih _ _ (Registry.inv_deaffiliate ho j g)
    · intro i
      simp only [deaffiliateAll_get gs s.registry j 0, Assoc.get_insert]
      have hgo : s.registry.groupsOf j = gs := by simp [Registry.groupsOf, h.same, hg]
      by_cases e : j = i
      · subst e
        rw [hgo]
        by_cases hn : gs = []
        · subst hn; simp [h.same, hg]
        · simp [hn]
      · simp [e, h.same]
    · intro i g
      rw [h2, hat]
      simp only [affiliatedAfter, World.after]
      by_cases e : i = j
      · subst e
        simp only [true_and, if_true]
        split
        · exact id
        · rename_i hn; intro hx; exact (hn (hin g (h.below _ _ hx))).elim
      · simpa [e] using h.below i g
    · intro i
      rw [h1.1, hkn]
      exact h.reg i
    · intro ha
      exact (emitGroups_brew ha (.deaffiliate j) hu (fun i gs e => by cases e) gs (w.after (.telemetry (.groupDetach j gs)))
        (h.baff ha) (h.breg ha)).1
    · intro ha i
      rw [hkn]
      exact (emitGroups_brew ha (.deaffiliate j) hu (fun i gs e => by cases e) gs (w.after (.telemetry (.groupDetach j gs)))
        (h.baff ha) (h.breg ha)).2 i
    · intro i g hq
      rw [h1.2.1]
      rw [hat] at hq
      simp only [World.after, telAttachedAfter]
      split at hq
      · cases hq
      · rename_i e; rw [if_neg (fun q => e q.1)]; exact h.above i g hq
    · intro i
      rw [h1.2.2, hkn]
      exact h.treg i
    · intro he i g
      rw [h2, hat]
      simp only [affiliatedAfter, World.after]
      by_cases e : i = j
      · subst e
        simp only [true_and, if_true]
        split
        · rfl
        · rename_i hn
          rw [he]
          cases hx : s.attached i g with
          | false => rfl
          | true => exact (hn (hin g hx)).elim
      · simpa [e] using he i g

/-! ## Attaching and detaching -/

/-- The registry operation of a changed entry. -/
def regWord (r : Registry) (j : Nat) (x : Nat × Bool) : Registry := if x.2 then r.affiliate j x.1 else r.deaffiliate j x.1

theorem entry_none {j : Nat} {a : Attaching} {x : GroupUplink} (h : x.word = none ∨ a.mm.clients.get j = none) : a.entry j x = a := by
  unfold Attaching.entry
  obtain ⟨cl, det, gssi, ext, vgssi⟩ := x
  cases gssi with
  | none => rfl
  | some g =>
    cases vgssi with
    | some _ => rfl
    | none =>
      cases ext with
      | some _ => rfl
      | none =>
        rcases h with h | h
        · simp [GroupUplink.word] at h
        · simp [h]

theorem entry_some {j : Nat} {a : Attaching} {x : GroupUplink} {g : Nat} {b : Bool} {gs : List Nat} (h : x.word = some (g, b))
    (hc : a.mm.clients.get j = some gs) :
    a.entry j x =
      { mm := ⟨a.mm.clients.insert j (attachGroup gs g b).1, if (attachGroup gs g b).2 then regWord a.mm.registry j (g, b) else a.mm.registry⟩
        events := a.events ++ if b then [.telemetry (.groupAttach j [g])] else []
        accepted := a.accepted ++ [acceptEntry x g]
        aff := if b && (attachGroup gs g b).2 then a.aff ++ [g] else a.aff
        deaff := if !b && (attachGroup gs g b).2 then a.deaff ++ [g] else a.deaff } := by
  unfold Attaching.entry
  obtain ⟨cl, det, gssi, ext, vgssi⟩ := x
  cases gssi with
  | none => simp [GroupUplink.word] at h
  | some g' =>
    cases vgssi with
    | some _ => simp [GroupUplink.word] at h
    | none =>
      cases ext with
      | some _ => simp [GroupUplink.word] at h
      | none =>
        simp only [GroupUplink.word, Option.some.injEq, Prod.mk.injEq] at h
        obtain ⟨rfl, hb⟩ := h
        cases det with
        | some d => simp only [Option.isNone_some] at hb; subst hb; simp [hc, regWord, acceptEntry]
        | none => simp only [Option.isNone_none] at hb; subst hb; simp [hc, regWord, acceptEntry]

/-- What holds inside the loop, with the state and the world before it. -/
structure Loop (s0 : Mm) (w0 : World) (j : Nat) (a : Attaching) : Prop where
  ops : ∃ ops, Registry.Inv a.mm.registry ops
  same : ∀ i, a.mm.registry.subscribers.get i = a.mm.clients.get i
  other : ∀ i, i ≠ j → a.mm.clients.get i = s0.clients.get i
  client : ∃ gs, a.mm.clients.get j = some gs
  untouched : ∀ g, g ∉ a.aff → g ∉ a.deaff → a.mm.attached j g = s0.attached j g
  attached : ∀ g, g ∈ a.aff → g ∉ a.deaff → a.mm.attached j g = true
  aff : (a.events.foldl World.after w0).aff = w0.aff
  reg : (a.events.foldl World.after w0).reg = w0.reg
  baff : (a.events.foldl World.after w0).baff = w0.baff
  breg : (a.events.foldl World.after w0).breg = w0.breg
  treg : (a.events.foldl World.after w0).treg = w0.treg
  above : ∀ i g, a.mm.attached i g = true → (a.events.foldl World.after w0).tatt i g = true
  quiet : ∀ o ∈ a.events, ∃ g, o = .telemetry (.groupAttach j [g])

theorem mem_attachGroup (gs : List Nat) (g : Nat) (b : Bool) (h : Nat) :
    (attachGroup gs g b).1.contains h = if g = h then b else gs.contains h := by
  rw [Bool.eq_iff_iff]
  cases b
  · simp only [attachGroup, Bool.false_eq_true, if_false, List.contains_iff_mem, Registry.mem_setRemove]
    by_cases e : g = h
    · simp [e]
    · simp [e, Ne.symm e]
  · simp only [attachGroup, if_true, List.contains_iff_mem, Registry.mem_setInsert]
    by_cases e : g = h
    · simp [e]
    · simp [e, Ne.symm e]

theorem changed_attachGroup (gs : List Nat) (g : Nat) (b : Bool) : (attachGroup gs g b).2 = (gs.contains g != b) := by
  cases b <;> simp [attachGroup]

theorem unchanged_attachGroup {gs : List Nat} {g : Nat} {b : Bool} (h : (attachGroup gs g b).2 = false) : (attachGroup gs g b).1 = gs := by
  cases b
  · simp only [attachGroup, Bool.false_eq_true, if_false] at h ⊢
    exact setRemove_of_not_mem h
  · simp only [attachGroup, if_true, Registry.setInsert, Bool.not_eq_false'] at h ⊢
    rw [if_pos h]

theorem loop_entry {s0 : Mm} {w0 : World} {j : Nat} {a : Attaching} (h : Loop s0 w0 j a) (x : GroupUplink) : Loop s0 w0 j (a.entry j x) := by
  obtain ⟨gs, hc⟩ := h.client
  cases hx : x.word with
  | none => rw [entry_none (.inl hx)]; exact h
  | some p =>
    obtain ⟨g, b⟩ := p
    rw [entry_some hx hc]
    have hat : ∀ r i k, Mm.attached ⟨a.mm.clients.insert j (attachGroup gs g b).1, r⟩ i k =
        if i = j ∧ g = k then b else a.mm.attached i k := by
      intro r i k
      simp only [Mm.attached, Mm.groups, Assoc.get_insert]
      by_cases e : j = i
      · subst e; simp only [if_true, Option.getD_some, mem_attachGroup, true_and, hc]
      · simp [e, Ne.symm e]
    have hch := changed_attachGroup gs g b
    have hold : a.mm.attached j g = gs.contains g := by simp [Mm.attached, Mm.groups, hc]
    refine ⟨?_, ?_, ?_, ⟨_, Assoc.get_insert_self _ _ _⟩, ?_, ?_, ?_, ?_, ?_, ?_, ?_, ?_, ?_⟩
    · obtain ⟨ops, ho⟩ := h.ops
      simp only
      split
      · simp only [regWord]
        split
        · exact ⟨_, Registry.inv_affiliate ho j g⟩
        · exact ⟨_, Registry.inv_deaffiliate ho j g⟩
      · exact ⟨_, ho⟩
    · intro i
      simp only [Assoc.get_insert]
      have hgo : a.mm.registry.groupsOf j = gs := by simp [Registry.groupsOf, h.same, hc]
      cases hq : (attachGroup gs g b).2 with
      | false =>
        simp only [Bool.false_eq_true, if_false, h.same]
        split
        · rename_i e; subst e; rw [hc, unchanged_attachGroup hq]
        · rfl
      | true =>
        simp only [if_true]
        cases b
        · simp only [regWord, Bool.false_eq_true, if_false, deaffiliate_get, hgo, attachGroup, h.same]
        · simp only [regWord, if_true, affiliate_get, hgo, attachGroup, h.same]
    · intro i hi
      simp only [Assoc.get_insert]
      rw [if_neg (Ne.symm hi)]
      exact h.other i hi
    · intro k h1 h2
      rw [hat]
      simp only at h1 h2
      by_cases e : g = k
      · subst e
        simp only [and_self, if_true]
        have hnc : (attachGroup gs g b).2 = false := by
          cases hq : (attachGroup gs g b).2 with
          | false => rfl
          | true => exfalso; cases b <;> simp [hq] at h1 h2
        rw [hnc] at h1 h2
        simp only [Bool.and_false, Bool.false_eq_true, if_false] at h1 h2
        rw [← h.untouched g h1 h2, hold]
        rw [hnc] at hch
        revert hch
        cases gs.contains g <;> cases b <;> simp
      · have : k ∉ a.aff ∧ k ∉ a.deaff := by
          constructor
          · intro q; apply h1; split
            · simp [q]
            · exact q
          · intro q; apply h2; split
            · simp [q]
            · exact q
        simp only [e, and_false, if_false]
        exact h.untouched k this.1 this.2
    · intro k h1 h2
      rw [hat]
      simp only at h1 h2
      by_cases e : g = k
      · subst e
        simp only [and_self, if_true]
        cases b with
        | true => rfl
        | false =>
          exfalso
          simp only [Bool.false_and, Bool.false_eq_true, if_false] at h1
          simp only [Bool.not_false, Bool.true_and] at h2
          cases hq : (attachGroup gs g false).2 with
          | true => simp [hq] at h2
          | false =>
            simp only [hq, Bool.false_eq_true, if_false] at h2
            have := h.attached g h1 h2
            rw [hold] at this
            rw [hq] at hch
            simp at hch
            simp [hch] at this
      · have : k ∈ a.aff ∧ k ∉ a.deaff := by
          constructor
          · split at h1
            · rcases List.mem_append.1 h1 with h1 | h1
              · exact h1
              · simp at h1; exact (e h1.symm).elim
            · exact h1
          · intro q; apply h2; split
            · simp [q]
            · exact q
        simp only [e, and_false, if_false]
        exact h.attached k this.1 this.2
    all_goals simp only [List.foldl_append]
    · cases b <;> exact h.aff
    · cases b <;> exact h.reg
    · cases b <;> exact h.baff
    · cases b <;> exact h.breg
    · cases b <;> exact h.treg
    · intro i k hk
      rw [hat] at hk
      cases b with
      | false =>
        simp only [Bool.false_eq_true, if_false, List.foldl_nil]
        split at hk
        · cases hk
        · exact h.above i k hk
      | true =>
        simp only [if_true, List.foldl_cons, List.foldl_nil, World.after, telAttachedAfter, List.mem_singleton]
        split at hk
        · rename_i e; rw [if_pos ⟨e.1, e.2.symm⟩]
        · rename_i e; rw [if_neg (fun q => e ⟨q.1, q.2.symm⟩)]; exact h.above i k hk
    · intro o ho
      rcases List.mem_append.1 ho with ho | ho
      · exact h.quiet o ho
      · split at ho
        · simp at ho; exact ⟨g, ho⟩
        · cases ho

theorem loop_entries {s0 : Mm} {w0 : World} {j : Nat} (xs : List GroupUplink) {a : Attaching} (h : Loop s0 w0 j a) :
    Loop s0 w0 j (xs.foldl (Attaching.entry j) a) := by
  induction xs generalizing a with
  | nil => exact h
  | cons x xs ih => exact ih (loop_entry h x)

/-- Whatever was detached stays so, if nothing is attached after its detachment. -/
theorem loop_exact {s0 : Mm} {w0 : World} {j : Nat} (xs : List GroupUplink) {a : Attaching} (h : Loop s0 w0 j a)
    (hd : ∀ g ∈ a.deaff, a.mm.attached j g = false ∧ (g, true) ∉ xs.filterMap GroupUplink.word) (hn : NoReattach xs) :
    ∀ g ∈ (xs.foldl (Attaching.entry j) a).deaff, (xs.foldl (Attaching.entry j) a).mm.attached j g = false := by
  induction xs generalizing a with
  | nil => exact fun g hg => (hd g hg).1
  | cons x xs ih =>
    rw [List.foldl_cons]
    obtain ⟨gs, hc⟩ := h.client
    cases hx : x.word with
    | none =>
      rw [entry_none (.inl hx)]
      exact ih h (by simpa [List.filterMap_cons, hx] using hd) (by simpa [NoReattach, List.filterMap_cons, hx] using hn)
    | some p =>
      obtain ⟨g, b⟩ := p
      have hl := loop_entry h x
      have hn' : NoReattach xs := by
        intro k hk
        apply hn k
        rw [List.filterMap_cons, hx]
        exact hk.cons _
      refine ih hl ?_ hn'
      rw [entry_some hx hc]
      rw [List.filterMap_cons, hx] at hd
      intro k hk
      simp only at hk
      have hat : ∀ r k, Mm.attached ⟨a.mm.clients.insert j (attachGroup gs g b).1, r⟩ j k = if g = k then b else a.mm.attached j k := by
        intro r k
        simp only [Mm.attached, Mm.groups, Assoc.get_insert_self, Option.getD_some, mem_attachGroup, hc]
      rw [hat]
      have hold : k ∈ a.deaff → (if g = k then b else a.mm.attached j k) = false ∧ (k, true) ∉ xs.filterMap GroupUplink.word := by
        intro hk
        obtain ⟨h1, h2⟩ := hd k hk
        simp only [List.mem_cons, not_or] at h2
        refine ⟨?_, h2.2⟩
        split
        · rename_i e
          subst e
          cases b with
          | false => rfl
          | true => exact (h2.1 rfl).elim
        · exact h1
      split at hk
      · rename_i hb
        rcases List.mem_append.1 hk with hk | hk
        · exact hold hk
        · simp only [List.mem_singleton] at hk
          subst hk
          simp only [Bool.and_eq_true, Bool.not_eq_eq_eq_not, Bool.not_true] at hb
          rw [hb.1]
          refine ⟨by simp, fun hm => hn k ?_⟩
          rw [List.filterMap_cons, hx, hb.1]
          exact (List.singleton_sublist.2 hm).cons_cons _
      · exact hold hk

theorem loop_start {c : Brew.Cfg} {s : Mm} {w : World} (h : Fits c s w) {j : Nat} {gs : List Nat} (hc : s.clients.get j = some gs) :
    Loop s w j ⟨s, [], [], [], []⟩ :=
  ⟨h.ops, h.same, fun _ _ => rfl, ⟨gs, hc⟩, fun _ _ _ => rfl, fun g hg => by simp at hg, rfl, rfl, rfl, rfl, rfl, h.above, by simp⟩

theorem entries_unknown {j : Nat} (xs : List GroupUplink) {a : Attaching} (h : a.mm.clients.get j = none) :
    xs.foldl (Attaching.entry j) a = a := by
  induction xs with
  | nil => rfl
  | cons x xs ih => rw [List.foldl_cons, entry_none (.inr h)]; exact ih

theorem fits_attachDetach {c : Brew.Cfg} {s : Mm} {w : World} (h : Fits c s w) (j : Nat) (xs : List GroupUplink) :
    Fits c (s.attachDetach c j xs).1 ((s.attachDetach c j xs).2.1.foldl World.after w) ∧
    (NoReattach xs → Exact s w → Exact (s.attachDetach c j xs).1 ((s.attachDetach c j xs).2.1.foldl World.after w)) := by
  unfold Mm.attachDetach
  cases hc : s.clients.get j with
  | none => rw [entries_unknown xs hc]; exact ⟨h, fun _ => id⟩
  | some gs =>
    have hl := loop_entries xs (loop_start h hc)
    have he := fun hn => loop_exact xs (loop_start h hc) (by simp) hn
    revert hl he
    generalize xs.foldl (Attaching.entry j) ⟨s, [], [], [], []⟩ = a
    intro hl he
    simp only [List.foldl_append]
    generalize hw : a.events.foldl World.after w = w1
    have hu1 : ∀ (k : Nat → Bool) (gs : List Nat), registeredAfter k (.affiliate j gs) = k := fun _ _ => rfl
    have hu2 : ∀ (k : Nat → Bool) (gs : List Nat), registeredAfter k (.deaffiliate j gs) = k := fun _ _ => rfl
    have hkn : ∀ i, a.mm.known i = s.known i := by
      intro i
      by_cases e : i = j
      · subst e
        obtain ⟨gs', hg'⟩ := hl.client
        rw [known_eq hg', known_eq hc]
      · simp only [Mm.known, hl.other i e]
    have hao : ∀ i g, i ≠ j → a.mm.attached i g = s.attached i g := by
      intro i g e; simp only [Mm.attached, Mm.groups, hl.other i e]
    have haff : ∀ i g, ((emitGroups c (.deaffiliate j) a.deaff).foldl World.after
        ((emitGroups c (.affiliate j) a.aff).foldl World.after w1)).aff i g =
        if i = j ∧ g ∈ a.deaff then false else if i = j ∧ g ∈ a.aff then true else w.aff i g := by
      intro i g
      rw [(emitGroups_aff c j a.deaff _).2, affiliatedAfter, (emitGroups_aff c j a.aff _).1, affiliatedAfter, ← hw, hl.aff]
    have hoth2 := emitGroups_other c (.deaffiliate j) hu2 a.deaff ((emitGroups c (.affiliate j) a.aff).foldl World.after w1)
    have hoth1 := emitGroups_other c (.affiliate j) hu1 a.aff w1
    have hbr : Brew.isActive c = true → _ := fun ha =>
      emitGroups_brew ha (.deaffiliate j) hu2 (fun i gs e => by cases e) a.deaff _
        (emitGroups_brew ha (.affiliate j) hu1 (fun i gs e => by cases e) a.aff w1
          (by rw [← hw, hl.baff, hl.aff]; exact h.baff ha) (by rw [← hw, hl.breg]; exact h.breg ha)).1
        (emitGroups_brew ha (.affiliate j) hu1 (fun i gs e => by cases e) a.aff w1
          (by rw [← hw, hl.baff, hl.aff]; exact h.baff ha) (by rw [← hw, hl.breg]; exact h.breg ha)).2
    refine ⟨⟨hl.ops, hl.same, ?_, ?_, fun ha => (hbr ha).1, ?_, ?_, ?_⟩, ?_⟩
    · intro i g
      rw [haff]
      by_cases e : i = j
      · subst e
        simp only [true_and]
        split
        · intro q; cases q
        · rename_i h1
          split
          · rename_i h2; intro _; exact hl.attached g h2 h1
          · rename_i h2; intro q; rw [hl.untouched g h2 h1]; exact h.below _ _ q
      · simp only [e, false_and, if_false, hao i g e]
        exact h.below i g
    · intro i
      rw [hoth2.1, hoth1.1, ← hw, hl.reg, hkn]
      exact h.reg i
    · intro ha i
      rw [(hbr ha).2 i, hkn]
    · intro i g hg
      rw [hoth2.2.1, hoth1.2.1, ← hw]
      exact hl.above i g hg
    · intro i
      rw [hoth2.2.2, hoth1.2.2, ← hw, hl.treg, hkn]
      exact h.treg i
    · intro hn hx i g
      rw [haff]
      by_cases e : i = j
      · subst e
        simp only [true_and]
        split
        · rename_i h1; exact (he hn g h1).symm
        · rename_i h1
          split
          · rename_i h2; exact (hl.attached g h2 h1).symm
          · rename_i h2; rw [hl.untouched g h2 h1]; exact hx _ _
      · simp only [e, false_and, if_false, hao i g e]
        exact hx i g

/-! ## Whole messages -/

theorem fits_answers {w : World} {out : List MmOut} (ho : ∀ o ∈ out, ∃ h i b, o = .answer h i b) :
    out.foldl World.after w = w := by
  induction out with
  | nil => rfl
  | cons o out ih =>
    obtain ⟨h, i, b, rfl⟩ := ho o (by simp)
    exact ih fun o ho' => ho o (by simp [ho'])

theorem onParsed_ok {α β : Type} {s : β} {o : Out (α × List Bool)} {f : α → Res (β × List MmOut)} {r : β × List MmOut}
    (h : onParsed s o f = .ok r) : r = (s, []) ∨ ∃ x rest, o = .ok (x, rest) ∧ f x = .ok r := by
  unfold onParsed at h
  split at h
  · exact .inr ⟨_, _, rfl, h⟩
  · simp only [Res.ok.injEq] at h; exact .inl h.symm
  · cases h

theorem fits_demandGroups {c : Brew.Cfg} {s : Mm} {w : World} (h : Fits c s w) (j : Nat) (d : Option LocationDemand) :
    Fits c (s.demandGroups c j d).1 ((s.demandGroups c j d).2.1.foldl World.after w) ∧
    (NoReattach (demandEntries d) → Exact s w → Exact (s.demandGroups c j d).1 ((s.demandGroups c j d).2.1.foldl World.after w)) := by
  match d with
  | none => exact ⟨h, fun _ => id⟩
  | some ⟨m, none⟩ => exact ⟨h, fun _ => id⟩
  | some ⟨m, some xs⟩ => exact fits_attachDetach h j xs

theorem fits_locationUpdate {c : Brew.Cfg} {s s' : Mm} {w : World} {hd j : Nat} {x : ULocationUpdateDemand} {out : List MmOut}
    (h : Fits c s w) (hr : s.locationUpdate c hd j x = .ok (s', out)) :
    Fits c s' (out.foldl World.after w) ∧ (NoReattach (demandEntries x.groupDemand) → Exact s w → Exact s' (out.foldl World.after w)) := by
  unfold Mm.locationUpdate at hr
  split at hr
  · simp only [Res.bind_eq_ok, Res.ok.injEq] at hr
    obtain ⟨sdu, _, cmd, hcmd, e⟩ := hr
    simp only [Prod.mk.injEq] at e
    obtain ⟨rfl, rfl⟩ := e
    have ha : ∀ o ∈ cmd, ∃ h i b, o = .answer h i b := by
      unfold sendCommand at hcmd
      split at hcmd
      · simp only [Res.bind_eq_ok, Res.ok.injEq] at hcmd
        obtain ⟨b, _, rfl⟩ := hcmd
        simp
      · simp only [Res.ok.injEq] at hcmd; subst hcmd; simp
    simp only [List.foldl_append, List.foldl_cons, List.foldl_nil]
    rw [fits_answers ha]
    simp only [World.after]
    cases hk : s.clients.get j with
    | none =>
      have hkn : s.known j = false := by simp [Mm.known, hk]
      simp only [hkn, Bool.not_false, if_true]
      obtain ⟨h1, h2⟩ := fits_addClient h hk
      obtain ⟨h3, h4⟩ := fits_demandGroups h1 j x.groupDemand
      exact ⟨h3, fun hn he => h4 hn (h2 he)⟩
    | some gs =>
      have hkn : s.known j = true := by simp [Mm.known, hk]
      simp only [hkn, Bool.not_true, Bool.false_eq_true, if_false, List.foldl_nil]
      exact fits_demandGroups h j x.groupDemand
  · simp only [Res.ok.injEq, Prod.mk.injEq] at hr
    obtain ⟨rfl, rfl⟩ := hr
    exact ⟨h, fun _ => id⟩

theorem fits_groupReport {c : Brew.Cfg} {s s' : Mm} {w : World} {hd j : Nat} {x : UAttachDetach} {out : List MmOut}
    (h : Fits c s w) (hr : s.groupReport c hd j x = .ok (s', out)) :
    Fits c s' (out.foldl World.after w) ∧ (NoReattach (x.groups.getD []) → Exact s w → Exact s' (out.foldl World.after w)) := by
  unfold Mm.groupReport at hr
  split at hr
  · simp only [Res.ok.injEq, Prod.mk.injEq] at hr
    obtain ⟨rfl, rfl⟩ := hr
    exact ⟨h, fun _ => id⟩
  · rename_i xs hx
    simp only [Res.bind_eq_ok, Res.ok.injEq] at hr
    obtain ⟨sdu, _, e⟩ := hr
    simp only [Prod.mk.injEq] at e
    obtain ⟨rfl, rfl⟩ := e
    simp only [List.foldl_append, List.foldl_cons, List.foldl_nil, World.after, hx, Option.getD_some]
    cases hm : x.mode with
    | true =>
      simp only [if_true]
      obtain ⟨h1, h2⟩ := fits_startOver h j
      obtain ⟨h3, h4⟩ := fits_attachDetach h1 j xs
      exact ⟨h3, fun hn he => h4 hn (h2 he)⟩
    | false =>
      simp only [Bool.false_eq_true, if_false, List.foldl_nil]
      exact fits_attachDetach h j xs

theorem fits_rx {c : Brew.Cfg} {s s' : Mm} {w : World} {hd j : Nat} {bits : List Bool} {out : List MmOut}
    (h : Fits c s w) (hr : s.rx c hd j bits = .ok (s', out)) :
    Fits c s' (out.foldl World.after w) ∧ (NoReattach (entriesOf bits) → Exact s w → Exact s' (out.foldl World.after w)) := by
  have hsame : ∀ {s' : Mm} {out : List MmOut}, (s', out) = (s, []) →
      Fits c s' (out.foldl World.after w) ∧ (NoReattach (entriesOf bits) → Exact s w → Exact s' (out.foldl World.after w)) := by
    intro s' out e
    cases e
    exact ⟨h, fun _ => id⟩
  unfold Mm.rx at hr
  split at hr
  · simp only [Res.ok.injEq] at hr; exact hsame hr.symm
  simp only at hr
  split at hr
  · rcases onParsed_ok hr with e | ⟨x, r, _, e⟩
    · exact hsame e
    · simp only [Res.ok.injEq] at e
      have := fits_itsiDetach h j
      rw [e] at this
      exact ⟨this.1, fun _ => this.2⟩
  split at hr
  · rename_i h2
    rcases onParsed_ok hr with e | ⟨x, r, hp, e⟩
    · exact hsame e
    · have := fits_locationUpdate h e
      simp only [entriesOf, h2, if_true, hp]
      exact this
  split at hr
  · rcases onParsed_ok hr with e | ⟨x, r, _, e⟩
    · exact hsame e
    · simp only [Mm.status, Res.bind_eq_ok, Res.ok.injEq, Prod.mk.injEq] at e
      obtain ⟨b, _, rfl, rfl⟩ := e
      exact ⟨h, fun _ => id⟩
  split at hr
  · rename_i h2 _ h7
    rcases onParsed_ok hr with e | ⟨x, r, hp, e⟩
    · exact hsame e
    · have := fits_groupReport h e
      simp only [entriesOf, h2, h7, if_true, if_false, hp]
      exact this
  · simp only [Res.ok.injEq] at hr; exact hsame hr.symm

theorem run_fits {c : Brew.Cfg} {h : List (MmIn × List MmOut)} {s : Mm} (hr : MmRun c h s) :
    Fits c s ((sent h).foldl World.after World.start) ∧
    ((∀ x ∈ h, NoReattach (entriesOf x.1.bits)) → Exact s ((sent h).foldl World.after World.start)) := by
  induction hr with
  | start => exact ⟨fits_start c, fun _ i g => rfl⟩
  | @step h s s' m out _ hx ih =>
    have hs : sent (h ++ [(m, out)]) = sent h ++ out := by simp [sent]
    rw [hs, List.foldl_append]
    obtain ⟨h1, h2⟩ := fits_rx ih.1 hx
    refine ⟨h1, fun hn => h2 (hn (m, out) (by simp)) (ih.2 fun x hx => hn x (by simp [hx]))⟩

end Verif.Mm
