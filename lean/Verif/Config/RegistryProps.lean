import Verif.Config.Registry
/-!
# C31 — Subscriber registry: group presence is exact

The specification looks only at the history of operations, newest first.
-/
namespace Verif.Config

/-- The operations other parts of the stack perform on the registry. -/
inductive RegOp where
  | register (issi : Nat)
  | deregister (issi : Nat)
  | affiliate (issi gssi : Nat)
  | deaffiliate (issi gssi : Nat)
  deriving DecidableEq, Repr

namespace Spec

/-- Known to the registry: registered, or mentioned in an affiliation, since it was last deregistered. -/
def Registered : List RegOp → Nat → Prop
  | [], _ => False
  | .register j :: h, i => i = j ∨ Registered h i
  | .affiliate j _ :: h, i => i = j ∨ Registered h i
  | .deaffiliate j _ :: h, i => i = j ∨ Registered h i
  | .deregister j :: h, i => i ≠ j ∧ Registered h i

/-- Attached to a group: affiliated to it since it last registered, deregistered or deaffiliated. -/
def Attached : List RegOp → Nat → Nat → Prop
  | [], _, _ => False
  | .register j :: h, i, g => i ≠ j ∧ Attached h i g
  | .deregister j :: h, i, g => i ≠ j ∧ Attached h i g
  | .affiliate j k :: h, i, g => (i = j ∧ g = k) ∨ Attached h i g
  | .deaffiliate j k :: h, i, g => ¬ (i = j ∧ g = k) ∧ Attached h i g

end Spec

/-- One operation of the code. -/
def RegOp.apply (r : Registry) : RegOp → Registry
  | .register i => r.register i
  | .deregister i => r.deregister i
  | .affiliate i g => r.affiliate i g
  | .deaffiliate i g => r.deaffiliate i g

/-- The registry after a history, newest operation first. -/
def Registry.after : List RegOp → Registry
  | [] => Registry.new
  | op :: h => op.apply (Registry.after h)

namespace Registry

theorem mem_setInsert {s : List Nat} {g x : Nat} : x ∈ setInsert s g ↔ x = g ∨ x ∈ s := by
  unfold setInsert
  split
  · rename_i h; simp at h; constructor
    · exact Or.inr
    · rintro (rfl | h') <;> assumption
  · simp

theorem mem_setRemove {s : List Nat} {g x : Nat} : x ∈ setRemove s g ↔ x ∈ s ∧ x ≠ g := by
  simp [setRemove]

theorem still_iff {subs : Assoc Nat (List Nat)} (hk : subs.Ok) (g : Nat) :
    stillHasMembers subs g = true ↔ ∃ i gs, subs.get i = some gs ∧ g ∈ gs := by
  simp only [stillHasMembers, List.any_eq_true, List.contains_iff_mem]
  constructor
  · rintro ⟨⟨i, gs⟩, he, hg⟩; exact ⟨i, gs, Assoc.get_of_mem hk he, hg⟩
  · rintro ⟨i, gs, he, hg⟩; exact ⟨(i, gs), Assoc.mem_of_get he, hg⟩

theorem mem_dropGroups {subs : Assoc Nat (List Nat)} {all gs : List Nat} {x : Nat} :
    x ∈ dropGroups subs all gs ↔ x ∈ all ∧ (x ∈ gs → stillHasMembers subs x = true) := by
  induction gs generalizing all with
  | nil => simp [dropGroups]
  | cons g gs ih =>
    simp only [dropGroups, ih]
    by_cases hs : stillHasMembers subs g = true
    · simp only [hs, if_true, List.mem_cons]
      constructor
      · rintro ⟨h1, h2⟩; exact ⟨h1, by rintro (rfl | h) <;> simp_all⟩
      · rintro ⟨h1, h2⟩; exact ⟨h1, fun h => h2 (Or.inr h)⟩
    · simp only [hs, Bool.false_eq_true, if_false, mem_setRemove, List.mem_cons]
      constructor
      · rintro ⟨⟨h1, h2⟩, h3⟩; exact ⟨h1, by rintro (rfl | h) <;> simp_all⟩
      · rintro ⟨h1, h2⟩
        refine ⟨⟨h1, ?_⟩, fun h => h2 (Or.inr h)⟩
        rintro rfl
        exact hs (h2 (Or.inl rfl))

/-- What the registry holds after a history. -/
structure Inv (r : Registry) (h : List RegOp) : Prop where
  ok : r.subscribers.Ok
  reg : ∀ i, (r.subscribers.get i).isSome = true ↔ Spec.Registered h i
  att : ∀ i g, g ∈ r.groupsOf i ↔ Spec.Attached h i g
  all : ∀ g, g ∈ r.allGroups ↔ ∃ i gs, r.subscribers.get i = some gs ∧ g ∈ gs

theorem inv_deregister {r : Registry} {h : List RegOp} (hi : Inv r h) (j : Nat) :
    Inv (r.deregister j) (.deregister j :: h) := by
  unfold deregister
  cases hg : r.subscribers.get j with
  | none =>
    refine ⟨hi.ok, ?_, ?_, hi.all⟩
    · intro i
      simp only [Spec.Registered]
      rw [← hi.reg i]
      constructor
      · intro hs; exact ⟨by rintro rfl; simp [hg] at hs, hs⟩
      · exact And.right
    · intro i g
      simp only [Spec.Attached]
      rw [← hi.att i g]
      constructor
      · intro hs; exact ⟨by rintro rfl; simp [groupsOf, hg] at hs, hs⟩
      · exact And.right
  | some gs =>
    have hok := Assoc.ok_erase hi.ok j
    refine ⟨hok, ?_, ?_, ?_⟩
    · intro i
      simp only [Spec.Registered, Assoc.get_erase]
      rw [← hi.reg i]
      by_cases hji : j = i
      · subst hji; simp
      · simp [hji, Ne.symm hji]
    · intro i g
      simp only [Spec.Attached, groupsOf, Assoc.get_erase]
      rw [← hi.att i g]
      by_cases hji : j = i
      · subst hji; simp
      · simp [hji, Ne.symm hji, groupsOf]
    · intro g
      simp only [mem_dropGroups, hi.all g]
      constructor
      · rintro ⟨⟨i, gs', h1, h2⟩, h3⟩
        by_cases hji : j = i
        · subst hji
          rw [hg] at h1; simp at h1; subst h1
          exact (still_iff hok g).1 (h3 h2)
        · exact ⟨i, gs', by rw [Assoc.get_erase_ne _ hji]; exact h1, h2⟩
      · rintro ⟨i, gs', h1, h2⟩
        refine ⟨⟨i, gs', ?_, h2⟩, fun _ => (still_iff hok g).2 ⟨i, gs', h1, h2⟩⟩
        rw [Assoc.get_erase] at h1
        split at h1
        · simp at h1
        · exact h1

theorem inv_register {r : Registry} {h : List RegOp} (hi : Inv r h) (j : Nat) :
    Inv (r.register j) (.register j :: h) := by
  have hd := inv_deregister hi j
  unfold register
  refine ⟨Assoc.ok_insert hd.ok _ _, ?_, ?_, ?_⟩
  · intro i
    have := hd.reg i
    simp only [Spec.Registered] at this ⊢
    simp only [Assoc.get_insert]
    by_cases hji : j = i
    · subst hji; simp
    · simp only [hji, if_false, this, Ne.symm hji, false_or]
      simp [Ne.symm hji]
  · intro i g
    have := hd.att i g
    simp only [Spec.Attached] at this ⊢
    rw [← this]
    simp only [groupsOf, Assoc.get_insert]
    by_cases hji : j = i
    · subst hji
      have : (deregister r j).subscribers.get j = none := by
        have := hd.reg j
        simp [Spec.Registered] at this
        exact this
      simp [this]
    · simp [hji]
  · intro g
    simp only [hd.all g]
    constructor
    · rintro ⟨i, gs, h1, h2⟩
      have hji : j ≠ i := by
        rintro rfl
        have := (hd.reg j).1 (by rw [h1]; rfl)
        simp [Spec.Registered] at this
      exact ⟨i, gs, by rw [Assoc.get_insert_ne _ hji]; exact h1, h2⟩
    · rintro ⟨i, gs, h1, h2⟩
      rw [Assoc.get_insert] at h1
      split at h1
      · simp at h1; subst h1; simp at h2
      · exact ⟨i, gs, h1, h2⟩

theorem ensure_get (r : Registry) (j i : Nat) :
    (r.ensure j).subscribers.get i = if i = j then some (r.groupsOf j) else r.subscribers.get i := by
  unfold ensure groupsOf
  cases hg : r.subscribers.get j with
  | none =>
    simp only [Assoc.get_insert]
    by_cases hji : j = i
    · subst hji; simp
    · simp [hji, Ne.symm hji]
  | some gs =>
    by_cases hji : i = j
    · subst hji; simp [hg]
    · simp [hji]

theorem ensure_ok {r : Registry} (h : r.subscribers.Ok) (j : Nat) : (r.ensure j).subscribers.Ok := by
  unfold ensure
  split
  · exact h
  · exact Assoc.ok_insert h _ _

theorem ensure_all (r : Registry) (j : Nat) : (r.ensure j).allGroups = r.allGroups := by
  unfold ensure; split <;> rfl

theorem ensure_groups (r : Registry) (j i : Nat) : (r.ensure j).groupsOf i = r.groupsOf i := by
  unfold groupsOf
  rw [ensure_get]
  split
  · rename_i e; subst e; simp [groupsOf]
  · rfl

theorem all_iff_groups {r : Registry} {g : Nat} :
    (∃ i gs, r.subscribers.get i = some gs ∧ g ∈ gs) ↔ ∃ i, g ∈ r.groupsOf i := by
  unfold groupsOf
  constructor
  · rintro ⟨i, gs, h1, h2⟩; exact ⟨i, by simp [h1, h2]⟩
  · rintro ⟨i, h⟩
    cases hg : r.subscribers.get i with
    | none => simp [hg] at h
    | some gs => exact ⟨i, gs, hg, by simpa [hg] using h⟩

theorem inv_affiliate {r : Registry} {h : List RegOp} (hi : Inv r h) (j k : Nat) :
    Inv (r.affiliate j k) (.affiliate j k :: h) := by
  have hgr : ∀ i, (r.affiliate j k).groupsOf i = if i = j then setInsert (r.groupsOf j) k else r.groupsOf i := by
    intro i
    have e : (r.affiliate j k).subscribers.get i =
        if j = i then some (setInsert (r.groupsOf j) k) else (r.ensure j).subscribers.get i := by
      simp only [affiliate, ensure_groups, Assoc.get_insert]
    simp only [groupsOf] at e ⊢
    rw [e, ensure_get]
    by_cases hji : j = i
    · subst hji; simp
    · simp [hji, Ne.symm hji]
  have hatt : ∀ i g, g ∈ (r.affiliate j k).groupsOf i ↔ Spec.Attached (.affiliate j k :: h) i g := by
    intro i g
    rw [hgr]
    simp only [Spec.Attached]
    rw [← hi.att i g]
    by_cases hji : i = j
    · subst hji; simp [mem_setInsert]
    · simp [hji]
  refine ⟨Assoc.ok_insert (ensure_ok hi.ok j) _ _, ?_, hatt, ?_⟩
  · intro i
    simp only [Spec.Registered, affiliate, Assoc.get_insert, ensure_get]
    rw [← hi.reg i]
    by_cases hji : j = i
    · subst hji; simp
    · simp [hji, Ne.symm hji]
  · intro g
    rw [all_iff_groups]
    have : (r.affiliate j k).allGroups = setInsert r.allGroups k := by
      simp only [affiliate, ensure_all]
    rw [this, mem_setInsert, hi.all g, all_iff_groups]
    constructor
    · rintro (rfl | ⟨i, hg⟩)
      · exact ⟨j, by rw [hgr]; simp [mem_setInsert]⟩
      · exact ⟨i, by rw [hgr]; split; · rename_i e; subst e; simp [mem_setInsert, hg]
                     · exact hg⟩
    · rintro ⟨i, hg⟩
      rw [hgr] at hg
      split at hg
      · rename_i e; subst e
        rcases mem_setInsert.1 hg with rfl | hg
        · exact Or.inl rfl
        · exact Or.inr ⟨_, hg⟩
      · exact Or.inr ⟨i, hg⟩

theorem inv_deaffiliate {r : Registry} {h : List RegOp} (hi : Inv r h) (j k : Nat) :
    Inv (r.deaffiliate j k) (.deaffiliate j k :: h) := by
  have hreg : ∀ (subs : Assoc Nat (List Nat)), (∀ i, (subs.get i).isSome = ((r.ensure j).subscribers.get i).isSome) →
      ∀ i, (subs.get i).isSome = true ↔ Spec.Registered (.deaffiliate j k :: h) i := by
    intro subs hs i
    rw [hs i, ensure_get]
    simp only [Spec.Registered]
    rw [← hi.reg i]
    by_cases hji : i = j <;> simp [hji]
  unfold deaffiliate
  simp only [ensure_groups]
  by_cases hc : (r.groupsOf j).contains k = true
  · rw [if_pos hc]
    have hok := Assoc.ok_insert (ensure_ok hi.ok j) j (setRemove (r.groupsOf j) k)
    have hgr : ∀ i, (((r.ensure j).subscribers.insert j (setRemove (r.groupsOf j) k)).get i).getD [] =
        if i = j then setRemove (r.groupsOf j) k else r.groupsOf i := by
      intro i
      simp only [Assoc.get_insert, ensure_get]
      by_cases hji : j = i
      · subst hji; simp
      · simp [hji, Ne.symm hji, groupsOf]
    refine ⟨hok, hreg _ ?_, ?_, ?_⟩
    · intro i
      simp only [Assoc.get_insert, ensure_get]
      by_cases hji : j = i
      · subst hji; simp
      · simp [hji, Ne.symm hji]
    · intro i g
      show g ∈ (((r.ensure j).subscribers.insert j (setRemove (r.groupsOf j) k)).get i).getD [] ↔ _
      rw [hgr]
      simp only [Spec.Attached]
      rw [← hi.att i g]
      by_cases hji : i = j
      · subst hji; simp [mem_setRemove]; exact And.comm
      · simp [hji]
    · intro g
      have key : (∃ i gs, ((r.ensure j).subscribers.insert j (setRemove (r.groupsOf j) k)).get i = some gs ∧ g ∈ gs) ↔
          ∃ i, g ∈ (if i = j then setRemove (r.groupsOf j) k else r.groupsOf i) := by
        have := all_iff_groups (r := ⟨(r.ensure j).subscribers.insert j (setRemove (r.groupsOf j) k), []⟩) (g := g)
        refine this.trans (exists_congr fun i => ?_)
        show g ∈ (((r.ensure j).subscribers.insert j (setRemove (r.groupsOf j) k)).get i).getD [] ↔ _
        rw [hgr]
      simp only [ensure_all]
      rw [key]
      by_cases hs : stillHasMembers ((r.ensure j).subscribers.insert j (setRemove (r.groupsOf j) k)) k = true
      · rw [if_pos hs, hi.all g, all_iff_groups]
        constructor
        · rintro ⟨i, hg⟩
          by_cases hgk : g = k
          · subst hgk
            exact key.1 ((still_iff hok g).1 hs)
          · exact ⟨i, by split; · rename_i e; subst e; exact mem_setRemove.2 ⟨hg, hgk⟩
                         · exact hg⟩
        · rintro ⟨i, hg⟩
          split at hg
          · rename_i e; subst e; exact ⟨_, (mem_setRemove.1 hg).1⟩
          · exact ⟨i, hg⟩
      · rw [if_neg hs, mem_setRemove, hi.all g, all_iff_groups]
        constructor
        · rintro ⟨⟨i, hg⟩, hgk⟩
          exact ⟨i, by split; · rename_i e; subst e; exact mem_setRemove.2 ⟨hg, hgk⟩
                       · exact hg⟩
        · rintro ⟨i, hg⟩
          refine ⟨?_, ?_⟩
          · split at hg
            · rename_i e; subst e; exact ⟨_, (mem_setRemove.1 hg).1⟩
            · exact ⟨i, hg⟩
          · rintro rfl
            exact hs ((still_iff hok g).2 (key.2 ⟨i, hg⟩))
  · rw [if_neg hc]
    refine ⟨ensure_ok hi.ok j, hreg _ (fun _ => rfl), ?_, ?_⟩
    · intro i g
      rw [ensure_groups]
      simp only [Spec.Attached]
      rw [← hi.att i g]
      constructor
      · intro hg
        refine ⟨?_, hg⟩
        rintro ⟨rfl, rfl⟩
        exact hc (List.contains_iff_mem.2 hg)
      · exact And.right
    · intro g
      rw [ensure_all, hi.all g, all_iff_groups, all_iff_groups]
      exact exists_congr fun i => by rw [ensure_groups]

theorem inv_after (h : List RegOp) : Inv (Registry.after h) h := by
  induction h with
  | nil => refine ⟨Assoc.ok_nil, ?_, ?_, ?_⟩ <;> simp [Registry.after, Registry.new, Spec.Registered, Spec.Attached, groupsOf]
  | cons op h ih =>
    cases op with
    | register i => exact inv_register ih i
    | deregister i => exact inv_deregister ih i
    | affiliate i g => exact inv_affiliate ih i g
    | deaffiliate i g => exact inv_deaffiliate ih i g

end Registry

/-- **C31.** After any history the registry reports exactly the stations which are registered, and reports
a group as having members exactly when some registered station is attached to it. -/
theorem c31_exact (h : List RegOp) :
    (∀ i, (Registry.after h).isRegistered i = true ↔ Spec.Registered h i) ∧
    (∀ g, (Registry.after h).hasGroupMembers g = true ↔ ∃ i, Spec.Registered h i ∧ Spec.Attached h i g) := by
  have hi := Registry.inv_after h
  refine ⟨hi.reg, ?_⟩
  intro g
  simp only [Registry.hasGroupMembers, List.contains_iff_mem, hi.all g]
  constructor
  · rintro ⟨i, gs, h1, h2⟩
    exact ⟨i, (hi.reg i).1 (by rw [h1]; rfl), (hi.att i g).1 (by simp [Registry.groupsOf, h1, h2])⟩
  · rintro ⟨i, _, h2⟩
    have := (hi.att i g).2 h2
    exact Registry.all_iff_groups.2 ⟨i, this⟩

/-- **C31, re-registration.** A station which has just registered is registered and attached to nothing;
other stations are untouched. -/
theorem c31_reregistration (h : List RegOp) (i : Nat) :
    (Registry.after (.register i :: h)).isRegistered i = true ∧
    (Registry.after (.register i :: h)).groupsOf i = [] ∧
    ∀ j, j ≠ i → ∀ g, g ∈ (Registry.after (.register i :: h)).groupsOf j ↔ g ∈ (Registry.after h).groupsOf j := by
  have hi := Registry.inv_after h
  have hr := Registry.inv_after (.register i :: h)
  refine ⟨(hr.reg i).2 (Or.inl rfl), ?_, ?_⟩
  · apply List.eq_nil_iff_forall_not_mem.2
    intro g hg
    exact ((hr.att i g).1 hg).1 rfl
  · intro j hj g
    rw [hr.att, hi.att]
    simp [Spec.Attached, hj]

/-- **C31, the groups of one station** are those it attached to. -/
theorem c31_groups (h : List RegOp) (i g : Nat) : g ∈ (Registry.after h).groupsOf i ↔ Spec.Attached h i g :=
  (Registry.inv_after h).att i g

/-- Finding: a deaffiliation of an unknown station registers it, so that it then counts as reachable. -/
theorem c31_deaffiliate_registers (i g : Nat) :
    (Registry.new.deaffiliate i g).isRegistered i = true ∧ Registry.new.isRegistered i = false := by
  simp [Registry.new, Registry.deaffiliate, Registry.ensure, Registry.groupsOf, Registry.isRegistered]

example : (Registry.after [.affiliate 1002 100, .register 1002, .deregister 1001, .affiliate 1001 100, .register 1001]).hasGroupMembers 100
    = true := by decide
example : (Registry.after [.deaffiliate 1001 91, .affiliate 1001 91, .register 1001]).hasGroupMembers 91 = false := by decide

end Verif.Config
