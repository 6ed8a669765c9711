import Verif.Cmce.CallFloor
/-!
# Group members: specification and lemmas
-/
namespace Verif.Cmce
open Tdma

/-! ## Specification -/

/-- Which station is affiliated to which group, from the updates alone. -/
def affiliatedAfter (t : Nat → Nat → Bool) : SubUpdate → Nat → Nat → Bool
  | .register _ => t
  | .deregister i => fun j g => if j = i then false else t j g
  | .affiliate i gs => fun j g => if j = i ∧ g ∈ gs then true else t j g
  | .deaffiliate i gs => fun j g => if j = i ∧ g ∈ gs then false else t j g
def affiliated (us : List SubUpdate) : Nat → Nat → Bool := us.foldl affiliatedAfter fun _ _ => false

/-- The updates of a history. -/
def updates (h : List (CcEv × List CcOut)) : List SubUpdate := h.filterMap fun x => match x.1 with
  | .update u => some u
  | _ => none

/-! ## Counting -/

/-- The number of listeners held for a group. -/
def cnt (l : Assoc Nat Nat) (g : Nat) : Nat := (l.get g).getD 0

theorem hasListener_cnt (s : Cc) (g : Nat) : s.hasListener g = true ↔ 0 < cnt s.listeners g := by
  simp [Cc.hasListener, cnt]

theorem hasListener_false (s : Cc) (g : Nat) : s.hasListener g = false ↔ cnt s.listeners g = 0 := by
  simp [Cc.hasListener, cnt]

theorem cnt_inc (l : Assoc Nat Nat) (x g : Nat) : cnt (incListener l x) g = cnt l g + if x = g then 1 else 0 := by
  simp only [cnt, incListener, Assoc.get_insert]
  split
  · rename_i e; subst e; simp
  · simp

theorem cnt_dec (l : Assoc Nat Nat) (x g : Nat) : cnt (decListener l x) g = cnt l g - if x = g then 1 else 0 := by
  unfold decListener
  split
  · rename_i n hn
    split
    · simp only [cnt, Assoc.get_erase]
      split
      · rename_i e; subst e; simp [hn]; omega
      · simp
    · simp only [cnt, Assoc.get_insert]
      split
      · rename_i e; subst e; simp [hn]
      · simp
  · rename_i hn
    split
    · rename_i e; subst e; simp [cnt, hn]
    · simp

theorem cnt_incs (r : List Nat) (hr : r.Nodup) (l : Assoc Nat Nat) (g : Nat) :
    cnt (r.foldl incListener l) g = cnt l g + if g ∈ r then 1 else 0 := by
  induction r generalizing l with
  | nil => simp
  | cons x r ih =>
    simp only [List.nodup_cons] at hr
    rw [List.foldl_cons, ih hr.2, cnt_inc]
    by_cases e : x = g
    · subst e; simp [hr.1]
    · have : ¬ g = x := fun h => e h.symm
      simp [e, this]

theorem cnt_decs_le (r : List Nat) (l : Assoc Nat Nat) (g : Nat) : cnt (r.foldl decListener l) g ≤ cnt l g := by
  induction r generalizing l with
  | nil => exact Nat.le_refl _
  | cons x r ih =>
    rw [List.foldl_cons]
    refine Nat.le_trans (ih _) ?_
    rw [cnt_dec]; omega

theorem cnt_decs_not (r : List Nat) (l : Assoc Nat Nat) {g : Nat} (hg : g ∉ r) : cnt (r.foldl decListener l) g = cnt l g := by
  induction r generalizing l with
  | nil => rfl
  | cons x r ih =>
    simp only [List.mem_cons, not_or] at hg
    rw [List.foldl_cons, ih _ hg.2, cnt_dec, if_neg (Ne.symm hg.1), Nat.sub_zero]

theorem cnt_decs (r : List Nat) (hr : r.Nodup) (l : Assoc Nat Nat) (g : Nat) :
    cnt (r.foldl decListener l) g = cnt l g - if g ∈ r then 1 else 0 := by
  induction r generalizing l with
  | nil => simp
  | cons x r ih =>
    simp only [List.nodup_cons] at hr
    rw [List.foldl_cons, ih hr.2, cnt_dec]
    by_cases e : x = g
    · subst e; simp [hr.1]
    · have : ¬ g = x := fun h => e h.symm
      simp [e, this]

theorem addGroups_spec (gs : List Nat) (set : List Nat) (hs : set.Nodup) :
    (addGroups set gs).1.Nodup ∧ (addGroups set gs).2.Nodup ∧ (∀ g, g ∈ (addGroups set gs).1 ↔ g ∈ set ∨ g ∈ gs) ∧
    (∀ g, g ∈ (addGroups set gs).2 ↔ g ∈ gs ∧ g ∉ set) := by
  induction gs generalizing set with
  | nil => simp [addGroups, hs]
  | cons x gs ih =>
    unfold addGroups
    split
    · rename_i hx
      simp only [List.contains_iff_mem] at hx
      obtain ⟨a, b, c, d⟩ := ih set hs
      refine ⟨a, b, ?_, ?_⟩
      · intro g; rw [c, List.mem_cons]
        constructor
        · rintro (h | h) <;> simp [h]
        · rintro (h | rfl | h)
          · exact .inl h
          · exact .inl hx
          · exact .inr h
      · intro g; rw [d, List.mem_cons]
        constructor
        · rintro ⟨h, h2⟩; exact ⟨.inr h, h2⟩
        · rintro ⟨rfl | h, h2⟩
          · exact absurd hx h2
          · exact ⟨h, h2⟩
    · rename_i hx
      simp only [List.contains_iff_mem] at hx
      obtain ⟨a, b, c, d⟩ := ih (x :: set) (List.nodup_cons.2 ⟨hx, hs⟩)
      refine ⟨a, ?_, ?_, ?_⟩
      · simp only [List.nodup_cons]
        refine ⟨?_, b⟩
        intro h
        exact ((d x).1 h).2 (by simp)
      · intro g
        simp only [c, List.mem_cons]
        constructor
        · rintro ((h | h) | h) <;> simp [h]
        · rintro (h | h | h) <;> simp [h]
      · intro g
        simp only [List.mem_cons, d]
        constructor
        · rintro (rfl | ⟨h1, h2⟩)
          · exact ⟨.inl rfl, hx⟩
          · exact ⟨.inr h1, fun h => h2 (.inr h)⟩
        · rintro ⟨rfl | h1, h2⟩
          · exact .inl rfl
          · by_cases e : g = x
            · exact .inl e
            · exact .inr ⟨h1, fun h => h.elim e h2⟩

theorem removeGroups_spec (gs : List Nat) (set : List Nat) (hs : set.Nodup) :
    (removeGroups set gs).1.Nodup ∧ (removeGroups set gs).2.Nodup ∧ (∀ g, g ∈ (removeGroups set gs).1 ↔ g ∈ set ∧ g ∉ gs) ∧
    (∀ g, g ∈ (removeGroups set gs).2 ↔ g ∈ gs ∧ g ∈ set) := by
  induction gs generalizing set with
  | nil => simp [removeGroups, hs]
  | cons x gs ih =>
    unfold removeGroups
    split
    · rename_i hx
      simp only [List.contains_iff_mem] at hx
      obtain ⟨a, b, c, d⟩ := ih (set.filter (· ≠ x)) (hs.filter _)
      simp only [List.mem_filter, decide_eq_true_eq] at c d
      refine ⟨a, ?_, ?_, ?_⟩
      · simp only [List.nodup_cons]
        exact ⟨fun h => ((d x).1 h).2.2 rfl, b⟩
      · intro g
        simp only [c, List.mem_cons, not_or]
        constructor
        · rintro ⟨⟨h1, h2⟩, h3⟩; exact ⟨h1, h2, h3⟩
        · rintro ⟨h1, h2, h3⟩; exact ⟨⟨h1, h2⟩, h3⟩
      · intro g
        simp only [List.mem_cons, d]
        constructor
        · rintro (rfl | ⟨h1, h2, h3⟩)
          · exact ⟨.inl rfl, hx⟩
          · exact ⟨.inr h1, h2⟩
        · rintro ⟨rfl | h1, h2⟩
          · exact .inl rfl
          · by_cases e : g = x
            · exact .inl e
            · exact .inr ⟨h1, h2, e⟩
    · rename_i hx
      simp only [List.contains_iff_mem] at hx
      obtain ⟨a, b, c, d⟩ := ih set hs
      refine ⟨a, b, ?_, ?_⟩
      · intro g
        simp only [c, List.mem_cons, not_or]
        constructor
        · rintro ⟨h1, h2⟩; exact ⟨h1, fun e => hx (e ▸ h1), h2⟩
        · rintro ⟨h1, _, h3⟩; exact ⟨h1, h3⟩
      · intro g
        simp only [d, List.mem_cons]
        constructor
        · rintro ⟨h1, h2⟩; exact ⟨.inr h1, h2⟩
        · rintro ⟨rfl | h1, h2⟩
          · exact absurd h2 hx
          · exact ⟨h1, h2⟩

/-! ## The invariant -/

/-- The number of stations in a group. -/
def membersOf (gs : Assoc Nat (List Nat)) (g : Nat) : Nat := gs.countP fun e => e.2.contains g

/-- The groups held for a station. -/
def groupsOf (gs : Assoc Nat (List Nat)) (i : Nat) : List Nat := (gs.get i).getD []

theorem count_erase (gs : Assoc Nat (List Nat)) (h : gs.Ok) (i g : Nat) :
    membersOf gs g = membersOf (gs.erase i) g + if (groupsOf gs i).contains g then 1 else 0 := by
  induction gs with
  | nil => simp [membersOf, Assoc.erase, groupsOf]
  | cons e gs ih =>
    obtain ⟨j, l⟩ := e
    have hok : Assoc.Ok gs := by simp only [Assoc.Ok, List.map_cons, List.nodup_cons] at h; exact h.2
    have hnot : j ∉ gs.map Prod.fst := by simp only [Assoc.Ok, List.map_cons, List.nodup_cons] at h; exact h.1
    have ih := ih hok
    by_cases hj : j = i
    · subst hj
      have hge : Assoc.get gs j = none := by
        cases hg : Assoc.get gs j with
        | none => rfl
        | some v => exact absurd (List.mem_map.2 ⟨_, Assoc.mem_of_get hg, rfl⟩) hnot
      have : (Assoc.erase ((j, l) :: gs) j) = Assoc.erase gs j := by simp [Assoc.erase]
      rw [this]
      simp only [groupsOf, hge, Option.getD_none, List.contains_nil, Bool.false_eq_true, if_false, Nat.add_zero] at ih
      simp only [membersOf, groupsOf, List.countP_cons, Assoc.get_cons, if_true, Option.getD_some] at ih ⊢
      rw [ih]
    · have : (Assoc.erase ((j, l) :: gs) i) = (j, l) :: Assoc.erase gs i := by simp [Assoc.erase, hj]
      rw [this]
      have hg : groupsOf ((j, l) :: gs) i = groupsOf gs i := by simp [groupsOf, hj]
      rw [hg]
      simp only [membersOf, List.countP_cons] at ih ⊢
      omega

theorem count_insert (gs : Assoc Nat (List Nat)) (i : Nat) (l : List Nat) (g : Nat) :
    membersOf (gs.insert i l) g = membersOf (gs.erase i) g + if l.contains g then 1 else 0 := by
  simp [Assoc.insert, membersOf, List.countP_cons]

/-- Memberships are sets, and the numbers of listeners are those of members. -/
structure MemInv (s : Cc) : Prop where
  ok : s.groups.Ok
  nodup : ∀ i l, s.groups.get i = some l → l.Nodup
  count : ∀ g, cnt s.listeners g = membersOf s.groups g

theorem MemInv.nodupOf {s : Cc} (h : MemInv s) (i : Nat) : (groupsOf s.groups i).Nodup := by
  unfold groupsOf
  cases hg : s.groups.get i with
  | none => exact List.nodup_nil
  | some l => exact h.nodup i l hg

/-- Every call is to a group somebody listens to. -/
def Cc.Listened (s : Cc) : Prop := ∀ id c, s.calls.get id = some c → s.hasListener c.gssi = true

theorem leaveLoop_calls (gs : List Nat) {s s' : Cc} {o : List CcOut} (h : CcInv s) (hs : s.leaveLoop gs = .ok (s', o)) :
    s'.groups = s.groups ∧ s'.listeners = gs.foldl decListener s.listeners ∧
    ∀ id, s'.calls.get id = match s.calls.get id with
      | some c => if c.gssi ∈ gs ∧ s'.hasListener c.gssi = false then none else some c
      | none => none := by
  induction gs generalizing s o with
  | nil =>
    cases hs
    refine ⟨rfl, rfl, ?_⟩
    intro id
    cases s'.calls.get id <;> simp
  | cons g gs ih =>
    have p0 := Prim.members s s.groups (decListener s.listeners g)
    obtain ⟨s1, o1, h1, p1, c1, g1, l1, _⟩ := dropUnlistened_prims (h.prim p0) g
    simp only [Cc.leaveLoop, h1, Res.bind_ok] at hs
    rw [Res.bind_eq_ok] at hs
    obtain ⟨q, hq, hs⟩ := hs
    cases hs
    obtain ⟨i1, i2, i3⟩ := ih ((h.prim p0).prims p1) hq
    refine ⟨by rw [i1, g1], by rw [i2, l1]; rfl, ?_⟩
    intro id
    rw [i3, c1]
    simp only
    cases hc : s.calls.get id with
    | none => rfl
    | some c =>
      simp only [List.mem_cons]
      have hle := cnt_decs_le gs s1.listeners c.gssi
      have hno := cnt_decs_not gs s1.listeners (g := c.gssi)
      rw [← i2, l1] at hle hno
      simp only at hle hno
      simp only [hasListener_false]
      by_cases e : c.gssi = g
      · subst e
        by_cases z : cnt (decListener s.listeners c.gssi) c.gssi = 0
        · have : cnt q.1.listeners c.gssi = 0 := by omega
          simp [z, this]
        · by_cases m : c.gssi ∈ gs
          · simp [z, m]
          · have := hno m
            simp [z, m, this]
      · simp [e]

theorem dropAll_calls (gs : List Nat) {s s' : Cc} {o : List CcOut} (h : CcInv s) (hs : s.dropAllUnlistened gs = .ok (s', o)) :
    s'.groups = s.groups ∧ s'.listeners = s.listeners ∧
    ∀ id, s'.calls.get id = match s.calls.get id with
      | some c => if c.gssi ∈ gs ∧ s.hasListener c.gssi = false then none else some c
      | none => none := by
  induction gs generalizing s o with
  | nil =>
    cases hs
    refine ⟨rfl, rfl, ?_⟩
    intro id
    cases s'.calls.get id <;> simp
  | cons g gs ih =>
    obtain ⟨s1, o1, h1, p1, c1, g1, l1, _⟩ := dropUnlistened_prims h g
    simp only [Cc.dropAllUnlistened, h1, Res.bind_ok] at hs
    rw [Res.bind_eq_ok] at hs
    obtain ⟨q, hq, hs⟩ := hs
    cases hs
    obtain ⟨i1, i2, i3⟩ := ih (h.prims p1) hq
    refine ⟨by rw [i1, g1], by rw [i2, l1], ?_⟩
    intro id
    rw [i3, c1]
    have hl : ∀ g, s1.hasListener g = s.hasListener g := by intro g; simp [Cc.hasListener, l1]
    cases hc : s.calls.get id with
    | none => rfl
    | some c =>
      simp only [List.mem_cons, hl]
      by_cases e : c.gssi = g
      · subst e
        cases hb : s.hasListener c.gssi <;> simp [hb]
      · simp [e]

/-- What an update does to memberships, numbers of listeners and calls. -/
theorem update_members {s s' : Cc} {u : SubUpdate} {o : List CcOut} (h : CcInv s) (hm : MemInv s) (hl : s.Listened)
    (hs : s.update u = .ok (s', o)) :
    MemInv s' ∧
    (∀ i, ∀ g, g ∈ groupsOf s'.groups i ↔ affiliatedAfter (fun i g => decide (g ∈ groupsOf s.groups i)) u i g = true) ∧
    (∀ id, s'.calls.get id = match s.calls.get id with
      | some c => if s'.hasListener c.gssi = false then none else some c
      | none => none) := by
  -- calls, from the form of the loops
  have hcalls : ∀ (s1 : Cc) (gs : List Nat), (∀ g, g ∉ gs → cnt s1.listeners g = cnt s.listeners g) →
      (∀ id, s1.calls.get id = match s.calls.get id with
        | some c => if c.gssi ∈ gs ∧ s1.hasListener c.gssi = false then none else some c
        | none => none) →
      ∀ id, s1.calls.get id = match s.calls.get id with
        | some c => if s1.hasListener c.gssi = false then none else some c
        | none => none := by
    intro s1 gs hg hc id
    rw [hc]
    cases hcc : s.calls.get id with
    | none => rfl
    | some c =>
      have := (hasListener_cnt s c.gssi).1 (hl id c hcc)
      simp only [hasListener_false]
      by_cases e : c.gssi ∈ gs
      · simp [e]
      · have := hg _ e
        have : ¬ cnt s1.listeners c.gssi = 0 := by omega
        simp [this]
  have hset : ∀ (i : Nat) (l : List Nat), l.Nodup → ∀ (lis : Assoc Nat Nat),
      (∀ g, cnt lis g + (if (groupsOf s.groups i).contains g then 1 else 0) = cnt s.listeners g + if l.contains g then 1 else 0) →
      MemInv { s with groups := s.groups.insert i l, listeners := lis } := by
    intro i l hnd lis hc
    refine ⟨Assoc.ok_insert hm.ok i l, ?_, ?_⟩
    · intro j x hx
      simp only [Assoc.get_insert] at hx
      split at hx
      · cases hx; exact hnd
      · exact hm.nodup j x hx
    · intro g
      simp only
      rw [count_insert]
      have h1 := hc g
      have h2 := count_erase s.groups hm.ok i g
      have h3 := hm.count g
      omega
  have hof : ∀ (i j : Nat) (l : List Nat), groupsOf (s.groups.insert i l) j = if i = j then l else groupsOf s.groups j := by
    intro i j l
    unfold groupsOf
    rw [Assoc.get_insert]
    split <;> rfl
  have keep : ∀ (s1 : Cc), s1.calls = s.calls → (∀ g, cnt s.listeners g ≤ cnt s1.listeners g) →
      ∀ id, s1.calls.get id = match s.calls.get id with
        | some c => if s1.hasListener c.gssi = false then none else some c
        | none => none := by
    intro s1 h1 h2 id
    rw [h1]
    cases hcc : s.calls.get id with
    | none => rfl
    | some c =>
      have a := (hasListener_cnt s c.gssi).1 (hl id c hcc)
      have b := h2 c.gssi
      simp only [hasListener_false]
      have : ¬ cnt s1.listeners c.gssi = 0 := by omega
      simp [this]
  cases u with
  | register i =>
    simp only [Cc.update] at hs
    cases hs
    cases hg : s.groups.get i with
    | some l =>
      refine ⟨⟨?_, ?_, ?_⟩, ?_, keep _ rfl (fun _ => Nat.le_refl _)⟩
      · exact hm.ok
      · exact hm.nodup
      · exact hm.count
      · intro j g; simp [affiliatedAfter]
    | none =>
      have hn : groupsOf s.groups i = [] := by simp [groupsOf, hg]
      refine ⟨hset i [] List.nodup_nil s.listeners (by simp [hn]), ?_, keep _ rfl (fun _ => Nat.le_refl _)⟩
      intro j g
      simp only [hof, affiliatedAfter]
      by_cases e : i = j
      · subst e; simp [hn]
      · simp [e]
  | affiliate i gs =>
    simp only [Cc.update] at hs
    cases hs
    obtain ⟨a1, a2, a3, a4⟩ := addGroups_spec gs (groupsOf s.groups i) (hm.nodupOf i)
    have a1' : (addGroups ((s.groups.get i).getD []) gs).1.Nodup := a1
    refine ⟨hset i _ a1' _ ?_, ?_, keep _ rfl ?_⟩
    · intro g
      have := cnt_incs _ a2 s.listeners g
      simp only [groupsOf] at this a3 a4 ⊢
      rw [this]
      simp only [List.contains_iff_mem, a3, a4]
      by_cases x : g ∈ gs <;> by_cases y : g ∈ (s.groups.get i).getD [] <;> simp [x, y]
    · intro j g
      simp only [hof, affiliatedAfter]
      by_cases e : i = j
      · subst e
        simp only [if_true, true_and]
        have := a3 g
        simp only [groupsOf] at this ⊢
        rw [this]
        by_cases x : g ∈ gs
        · simp [x]
        · simp only [x, or_false, if_false]; exact decide_eq_true_iff.symm
      · have : ¬ j = i := fun h => e h.symm
        simp [e, this]
    · intro g
      have := cnt_incs _ a2 s.listeners g
      simp only [groupsOf] at this
      simp only
      rw [this]
      omega
  | deregister i =>
    simp only [Cc.update] at hs
    split at hs
    · rename_i gs hg
      have p0 := Prim.members s (s.groups.erase i) s.listeners
      obtain ⟨b1, b2, b3⟩ := leaveLoop_calls gs (h.prim p0) hs
      have hnd := hm.nodup i gs hg
      simp only at b1 b2 b3
      have hgo : groupsOf s.groups i = gs := by simp [groupsOf, hg]
      refine ⟨⟨?_, ?_, ?_⟩, ?_, ?_⟩
      · rw [b1]; exact Assoc.ok_erase hm.ok i
      · intro j l hj
        rw [b1, Assoc.get_erase] at hj
        split at hj
        · cases hj
        · exact hm.nodup j l hj
      · intro g
        rw [b1, b2, cnt_decs _ hnd, hm.count, count_erase s.groups hm.ok i g, hgo]
        simp only [List.contains_iff_mem]
        omega
      · intro j g
        have : groupsOf s'.groups j = if i = j then [] else groupsOf s.groups j := by
          unfold groupsOf
          rw [b1, Assoc.get_erase]
          split <;> rfl
        rw [this]
        by_cases e : i = j
        · subst e; simp [affiliatedAfter]
        · have : ¬ j = i := fun h => e h.symm
          simp [e, affiliatedAfter, this]
      · apply hcalls s' gs _ b3
        intro g hgn
        rw [b2, cnt_decs_not _ _ hgn]
    · rename_i hg
      cases hs
      refine ⟨hm, ?_, keep _ rfl (fun _ => Nat.le_refl _)⟩
      intro j g
      simp only [affiliatedAfter]
      by_cases e : j = i
      · subst e; simp [groupsOf, hg]
      · simp [e]
  | deaffiliate i gs =>
    simp only [Cc.update] at hs
    split at hs
    · rename_i set hg
      have p0 := Prim.members s (s.groups.insert i (removeGroups set gs).1) ((removeGroups set gs).2.foldl decListener s.listeners)
      obtain ⟨b1, b2, b3⟩ := dropAll_calls _ (h.prim p0) hs
      simp only at b1 b2 b3
      obtain ⟨a1, a2, a3, a4⟩ := removeGroups_spec gs set (hm.nodup i set hg)
      have hgo : groupsOf s.groups i = set := by simp [groupsOf, hg]
      have hmm := hset i _ a1 ((removeGroups set gs).2.foldl decListener s.listeners) (by
        intro g
        rw [cnt_decs _ a2, hgo]
        have h2 := count_erase s.groups hm.ok i g
        rw [hgo] at h2
        have h3 := hm.count g
        simp only [List.contains_iff_mem] at h2 ⊢
        simp only [a3, a4]
        by_cases x : g ∈ gs <;> by_cases y : g ∈ set <;> simp [x, y] at h2 ⊢
        omega)
      refine ⟨⟨by rw [b1]; exact hmm.ok, by rw [b1]; exact hmm.nodup, by rw [b1, b2]; exact hmm.count⟩, ?_, ?_⟩
      · intro j g
        rw [b1, hof]
        simp only [affiliatedAfter]
        by_cases e : i = j
        · subst e
          simp only [if_true, true_and, a3, hgo]
          by_cases x : g ∈ gs <;> simp [x]
        · have : ¬ j = i := fun h => e h.symm
          simp [e, this]
      · have hl' : ∀ g, ({ s with groups := s.groups.insert i (removeGroups set gs).1, listeners := (removeGroups set gs).2.foldl decListener s.listeners } : Cc).hasListener g = s'.hasListener g := by
          intro g; simp [Cc.hasListener, b2]
        simp only [hl'] at b3
        apply hcalls s' _ _ b3
        intro g hgn
        rw [b2, cnt_decs_not _ _ hgn]
    · rename_i hg
      obtain ⟨b1, b2, b3⟩ := dropAll_calls _ h hs
      refine ⟨⟨by rw [b1]; exact hm.ok, by rw [b1]; exact hm.nodup, by rw [b1, b2]; exact hm.count⟩, ?_, ?_⟩
      · intro j g
        rw [b1]
        simp only [affiliatedAfter]
        by_cases e : j = i
        · subst e; simp [groupsOf, hg]
        · simp [e]
      · have hl' : ∀ g, s.hasListener g = s'.hasListener g := by intro g; simp [Cc.hasListener, b2]
        simp only [hl'] at b3
        apply hcalls s' _ _ b3
        intro g hgn
        rw [b2]

theorem prim_listened {s s' : Cc} {o : List CcOut} (hi : CcInv s) (hp : Prim s false o s') (hl : s.Listened) :
    s'.groups = s.groups ∧ s'.listeners = s.listeners ∧ s'.Listened := by
  have hset : ∀ (s' : Cc) (id : Nat) (c : Call), s'.calls = s.calls.insert id c → s'.listeners = s.listeners → s.hasListener c.gssi = true → s'.Listened := by
    intro s' id c h1 h2 h3 j d hd
    have he : ∀ g, s'.hasListener g = s.hasListener g := by intro g; simp [Cc.hasListener, h2]
    rw [h1, Assoc.get_insert] at hd
    rw [he]
    split at hd
    · cases hd; exact h3
    · exact hl j d hd
  have hdel : ∀ (s' : Cc) (id : Nat), s'.calls = s.calls.erase id → s'.listeners = s.listeners → s'.Listened := by
    intro s' id h1 h2 j d hd
    have he : ∀ g, s'.hasListener g = s.hasListener g := by intro g; simp [Cc.hasListener, h2]
    rw [h1, Assoc.get_erase] at hd
    rw [he]
    split at hd
    · cases hd
    · exact hl j d hd
  cases hp with
  | aside => exact ⟨rfl, rfl, hl⟩
  | start a i comm k c p h1 h2 h3 h4 h5 => exact ⟨rfl, rfl, hset _ k.callId c rfl rfl h5⟩
  | stop id c => exact ⟨rfl, rfl, hdel _ id rfl rfl⟩
  | expire i k => exact ⟨rfl, rfl, hdel _ k.callId rfl rfl⟩
  | cease id c b n h1 => exact ⟨rfl, rfl, hset _ id _ rfl rfl (hl id c h1)⟩
  | grant id c ssi h1 => exact ⟨rfl, rfl, hset _ id _ rfl rfl (hl id c h1)⟩
  | netGrant id c u sp h1 => exact ⟨rfl, rfl, hset _ id _ rfl rfl (hl id c h1)⟩
  | announce => exact ⟨rfl, rfl, hl⟩

theorem prims_listened {s s' : Cc} {o : List CcOut} (hp : Prims false s o s') (hi : CcInv s) (hl : s.Listened) :
    s'.groups = s.groups ∧ s'.listeners = s.listeners ∧ s'.Listened := by
  generalize hm : false = m at hp
  induction hp with
  | nil => exact ⟨rfl, rfl, hl⟩
  | cons hp hps ih =>
    subst hm
    obtain ⟨a, b, c⟩ := prim_listened hi hp hl
    obtain ⟨a', b', c'⟩ := ih (hi.prim hp) c
    exact ⟨a'.trans a, b'.trans b, c'⟩

theorem get_map_groups (f : Nat → List Nat → List Nat) (gs : Assoc Nat (List Nat)) (i : Nat) :
    Assoc.get (gs.map fun e => (e.1, f e.1 e.2)) i = (gs.get i).map (f i) := by
  induction gs with
  | nil => rfl
  | cons e gs ih =>
    obtain ⟨j, l⟩ := e
    simp only [List.map_cons, Assoc.get_cons, ih]
    split
    · rename_i h; subst h; rfl
    · rfl

theorem affiliatedAfter_congr {t t' : Nat → Nat → Bool} (h : ∀ i g, t i g = t' i g) (u : SubUpdate) (i g : Nat) :
    affiliatedAfter t u i g = affiliatedAfter t' u i g := by
  have : t = t' := funext fun i => funext fun g => h i g
  rw [this]

/-- Memberships and listeners after a history. -/
theorem ccRun_members {r : Nat → Bool} {h : List (CcEv × List CcOut)} {s : Cc} (hr : CcRun r h s) :
    MemInv s ∧ s.Listened ∧ ∀ i g, affiliated (updates h) i g = decide (g ∈ groupsOf s.groups i) := by
  induction hr with
  | init =>
    refine ⟨⟨Assoc.ok_nil, ?_, ?_⟩, ?_, ?_⟩
    · intro i l h; cases h
    · intro g; rfl
    · intro id c h; cases h
    · intro i g; rfl
  | @step h s s' e o hr hs ih =>
    have hi := ccRun_inv hr
    obtain ⟨i1, i2, i3⟩ := ih
    have hu : ∀ e', updates (h ++ [(e', o)]) = updates h ++ updates [(e', o)] := by
      intro e'; simp [updates]
    have hkeep : s'.groups = s.groups → s'.listeners = s.listeners → s'.Listened → (updates [(e, o)] = []) →
        MemInv s' ∧ s'.Listened ∧ ∀ i g, affiliated (updates (h ++ [(e, o)])) i g = decide (g ∈ groupsOf s'.groups i) := by
      intro h1 h2 h3 h4
      refine ⟨⟨by rw [h1]; exact i1.ok, by rw [h1]; exact i1.nodup, by rw [h1, h2]; exact i1.count⟩, h3, ?_⟩
      intro i g
      rw [hu, h4, List.append_nil, h1]
      exact i3 i g
    cases (step_ok hi hs).2 with
    | @tick now o1 o2 s1 _ hst p1 p2 =>
      obtain ⟨a1, a2, a3⟩ := prims_listened p1 (hi.clock now) i2
      obtain ⟨b1, b2, b3⟩ := prims_listened p2 (((hi.clock now).prims p1).mgrClock now) a3
      exact hkeep (b1.trans a1) (b2.trans a2) b3 rfl
    | @update u _ _ p =>
      obtain ⟨a1, a2, a3⟩ := update_members hi i1 i2 hs
      refine ⟨a1, ?_, ?_⟩
      · intro id c hc
        rw [a3] at hc
        split at hc
        · split at hc
          · cases hc
          · rename_i hf; cases hc; simpa using hf
        · cases hc
      · intro i g
        have hcalc : affiliated (updates (h ++ [(.update u, o)])) i g = affiliatedAfter (affiliated (updates h)) u i g := by
          rw [hu]; simp [affiliated, List.foldl_append, updates]
        rw [hcalc, affiliatedAfter_congr i3]
        have := a2 i g
        cases hx : affiliatedAfter (fun i g => decide (g ∈ groupsOf s.groups i)) u i g with
        | true => rw [hx] at this; simp [this]
        | false => rw [hx] at this; simp [this]
    | other hne hnu p =>
      obtain ⟨b1, b2, b3⟩ := prims_listened p hi i2
      apply hkeep b1 b2 b3
      cases e with
      | update u => exact absurd rfl (hnu u)
      | _ => rfl
  | reorder hr hreo ih =>
    have hi := ccRun_inv hr
    obtain ⟨i1, i2, i3⟩ := ih
    obtain ⟨calls', f, hp, hf, rfl⟩ := hreo
    refine ⟨⟨?_, ?_, ?_⟩, ?_, ?_⟩
    · have := i1.ok
      simp only [Assoc.Ok, List.map_map] at this ⊢
      exact this
    · intro i l hl
      simp only [get_map_groups, Option.map_eq_some_iff] at hl
      obtain ⟨l', h1, rfl⟩ := hl
      exact (hf i l').nodup_iff.2 (i1.nodup i l' h1)
    · intro g
      simp only
      rw [i1.count]
      simp only [membersOf, List.countP_map]
      apply List.countP_congr
      intro e he
      simp only [Function.comp, List.contains_iff_mem]
      exact (hf e.1 e.2).mem_iff.symm
    · intro id c hc
      simp only [get_perm hp hi.ok] at hc
      exact i2 id c hc
    · intro i g
      rw [i3]
      congr 1
      simp only [groupsOf, get_map_groups]
      cases hg : (Cc.groups _).get i with
      | none => rfl
      | some l => simp only [Option.map_some, Option.getD_some]; exact propext (hf i l).mem_iff.symm

end Verif.Cmce
