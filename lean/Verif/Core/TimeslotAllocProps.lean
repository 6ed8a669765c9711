import Verif.Core.TimeslotAlloc
/-!
# Property C05: exclusive timeslot ownership

The specification knows nothing of the array: it is a map `held : Nat → Option Owner` and the meaning of
each call and result on it (`SpecStep`). Ownership after a history can also be read off the log alone.
-/
namespace Verif.TsAlloc

/-- Meaning of a call and its result on the abstract "who holds which slot" map. -/
inductive SpecStep (held : Nat → Option Owner) : Op → Out → (Nat → Option Owner) → Prop where
  /-- the lowest free slot of 2,3,4 is handed out -/
  | alloc (o : Owner) (ts : Nat) (hr : 2 ≤ ts ∧ ts ≤ 4) (hfree : held ts = none)
      (hlow : ∀ u, 2 ≤ u → u < ts → held u ≠ none) :
      SpecStep held (.allocateAny o) (.slot (some ts)) (fun u => if u = ts then some o else held u)
  /-- refused only when all three are held -/
  | allocFull (o : Owner) (hfull : ∀ u, 2 ≤ u → u ≤ 4 → held u ≠ none) :
      SpecStep held (.allocateAny o) (.slot none) held
  | reserve (o : Owner) (ts : Nat) (hr : 2 ≤ ts ∧ ts ≤ 4) (hfree : held ts = none) :
      SpecStep held (.reserve o ts) (.unit (.ok ())) (fun u => if u = ts then some o else held u)
  | reserveInUse (o : Owner) (ts : Nat) (p : Owner) (hr : 2 ≤ ts ∧ ts ≤ 4) (hh : held ts = some p) :
      SpecStep held (.reserve o ts) (.unit (.error (.inUse ts p))) held
  | reserveInvalid (o : Owner) (ts : Nat) (hr : ¬ (2 ≤ ts ∧ ts ≤ 4)) :
      SpecStep held (.reserve o ts) (.unit (.error (.invalidTimeslot ts))) held
  | release (o : Owner) (ts : Nat) (hr : 2 ≤ ts ∧ ts ≤ 4) (hh : held ts = some o) :
      SpecStep held (.release o ts) (.unit (.ok ())) (fun u => if u = ts then none else held u)
  | releaseNot (o : Owner) (ts : Nat) (hr : 2 ≤ ts ∧ ts ≤ 4) (hh : held ts = none) :
      SpecStep held (.release o ts) (.unit (.error (.notAllocated ts))) held
  | releaseOther (o p : Owner) (ts : Nat) (hr : 2 ≤ ts ∧ ts ≤ 4) (hh : held ts = some p) (hne : p ≠ o) :
      SpecStep held (.release o ts) (.unit (.error (.ownerMismatch ts o p))) held
  | releaseInvalid (o : Owner) (ts : Nat) (hr : ¬ (2 ≤ ts ∧ ts ≤ 4)) :
      SpecStep held (.release o ts) (.unit (.error (.invalidTimeslot ts))) held

/-- A whole history of calls and results is explained by the specification. -/
inductive SpecRun : (Nat → Option Owner) → List (Op × Out) → (Nat → Option Owner) → Prop where
  | nil (held) : SpecRun held [] held
  | cons {held held' held'' op out log} (h : SpecStep held op out held') (r : SpecRun held' log held'') :
      SpecRun held ((op, out) :: log) held''

private theorem owner_oob (a : Alloc) (u : Nat) (h : ¬ (2 ≤ u ∧ u ≤ 4)) : a.owner u = none := by
  simp [Alloc.owner, idx, h]

private theorem owner_in (a : Alloc) (u : Nat) (h : 2 ≤ u ∧ u ≤ 4) : a.owner u = a.at (u - 2) := by
  simp [Alloc.owner, idx, h]

/-- C05: every call on a well-formed allocator does exactly what the specification says. -/
theorem c05_step_refines (a : Alloc) (h : a.owners.length = 3) (op : Op) :
    SpecStep a.owner op (step a op).2 (step a op).1.owner := by
  obtain ⟨l⟩ := a
  match l, h with
  | [x, y, z], _ =>
    have hl2 : (Alloc.mk [x, y, z]).owner 2 = x := rfl
    have hl3 : (Alloc.mk [x, y, z]).owner 3 = y := rfl
    have hl4 : (Alloc.mk [x, y, z]).owner 4 = z := rfl
    have ext : ∀ (p q r : Option Owner) (g : Nat → Option Owner), g 2 = p → g 3 = q → g 4 = r →
        (∀ u, ¬ (2 ≤ u ∧ u ≤ 4) → g u = none) → g = (Alloc.mk [p, q, r]).owner := by
      intro p q r g h2 h3 h4 ho
      funext u
      by_cases hu : 2 ≤ u ∧ u ≤ 4
      · have : u = 2 ∨ u = 3 ∨ u = 4 := by omega
        rcases this with rfl | rfl | rfl
        · exact h2
        · exact h3
        · exact h4
      · rw [ho u hu, owner_oob _ _ hu]
    cases op with
    | allocateAny o =>
      match x, y, z with
      | none, y, z =>
        have e := ext (some o) y z (fun u => if u = 2 then some o else (Alloc.mk [none, y, z]).owner u)
          rfl rfl rfl (fun u hu => by rw [if_neg (by omega), owner_oob _ _ hu])
        have := SpecStep.alloc (held := (Alloc.mk [none, y, z]).owner) o 2 (by omega) rfl (by omega)
        rw [e] at this; exact this
      | some p, none, z =>
        have e := ext (some p) (some o) z (fun u => if u = 3 then some o else (Alloc.mk [some p, none, z]).owner u)
          rfl rfl rfl (fun u hu => by rw [if_neg (by omega), owner_oob _ _ hu])
        have := SpecStep.alloc (held := (Alloc.mk [some p, none, z]).owner) o 3 (by omega) rfl
          (by intro u h1 h2; have : u = 2 := by omega
              subst this; simp [Alloc.owner, idx, Alloc.at])
        rw [e] at this; exact this
      | some p, some q, none =>
        have e := ext (some p) (some q) (some o) (fun u => if u = 4 then some o else (Alloc.mk [some p, some q, none]).owner u)
          rfl rfl rfl (fun u hu => by rw [if_neg (by omega), owner_oob _ _ hu])
        have := SpecStep.alloc (held := (Alloc.mk [some p, some q, none]).owner) o 4 (by omega) rfl
          (by intro u h1 h2; have : u = 2 ∨ u = 3 := by omega
              rcases this with rfl | rfl <;> simp [Alloc.owner, idx, Alloc.at])
        rw [e] at this; exact this
      | some p, some q, some r =>
        exact SpecStep.allocFull o (by
          intro u h1 h2; have : u = 2 ∨ u = 3 ∨ u = 4 := by omega
          rcases this with rfl | rfl | rfl <;> simp [Alloc.owner, idx, Alloc.at])
    | reserve o ts =>
      by_cases hts : 2 ≤ ts ∧ ts ≤ 4
      · have hc : ts = 2 ∨ ts = 3 ∨ ts = 4 := by omega
        rcases hc with rfl | rfl | rfl
        · cases x with
          | none =>
            have e := ext (some o) y z (fun u => if u = 2 then some o else (Alloc.mk [none, y, z]).owner u)
              rfl rfl rfl (fun u hu => by rw [if_neg (by omega), owner_oob _ _ hu])
            have := SpecStep.reserve (held := (Alloc.mk [none, y, z]).owner) o 2 hts rfl
            rw [e] at this; exact this
          | some p => exact SpecStep.reserveInUse o 2 p hts rfl
        · cases y with
          | none =>
            have e := ext x (some o) z (fun u => if u = 3 then some o else (Alloc.mk [x, none, z]).owner u)
              rfl rfl rfl (fun u hu => by rw [if_neg (by omega), owner_oob _ _ hu])
            have := SpecStep.reserve (held := (Alloc.mk [x, none, z]).owner) o 3 hts rfl
            rw [e] at this; exact this
          | some p => exact SpecStep.reserveInUse o 3 p hts rfl
        · cases z with
          | none =>
            have e := ext x y (some o) (fun u => if u = 4 then some o else (Alloc.mk [x, y, none]).owner u)
              rfl rfl rfl (fun u hu => by rw [if_neg (by omega), owner_oob _ _ hu])
            have := SpecStep.reserve (held := (Alloc.mk [x, y, none]).owner) o 4 hts rfl
            rw [e] at this; exact this
          | some p => exact SpecStep.reserveInUse o 4 p hts rfl
      · simp only [step, Alloc.reserve, idx, if_neg hts]
        exact SpecStep.reserveInvalid o ts hts
    | release o ts =>
      by_cases hts : 2 ≤ ts ∧ ts ≤ 4
      · have hc : ts = 2 ∨ ts = 3 ∨ ts = 4 := by omega
        rcases hc with rfl | rfl | rfl
        · cases x with
          | none => exact SpecStep.releaseNot o 2 hts rfl
          | some p =>
            by_cases hp : p = o
            · subst hp
              have e := ext none y z (fun u => if u = 2 then none else (Alloc.mk [some p, y, z]).owner u)
                rfl rfl rfl (fun u hu => by rw [if_neg (by omega), owner_oob _ _ hu])
              have := SpecStep.release (held := (Alloc.mk [some p, y, z]).owner) p 2 hts rfl
              rw [e] at this
              simpa [step, Alloc.release, idx, Alloc.at] using this
            · have := SpecStep.releaseOther (held := (Alloc.mk [some p, y, z]).owner) o p 2 hts rfl hp
              simpa [step, Alloc.release, idx, Alloc.at, hp] using this
        · cases y with
          | none => exact SpecStep.releaseNot o 3 hts rfl
          | some p =>
            by_cases hp : p = o
            · subst hp
              have e := ext x none z (fun u => if u = 3 then none else (Alloc.mk [x, some p, z]).owner u)
                rfl rfl rfl (fun u hu => by rw [if_neg (by omega), owner_oob _ _ hu])
              have := SpecStep.release (held := (Alloc.mk [x, some p, z]).owner) p 3 hts rfl
              rw [e] at this
              simpa [step, Alloc.release, idx, Alloc.at] using this
            · have := SpecStep.releaseOther (held := (Alloc.mk [x, some p, z]).owner) o p 3 hts rfl hp
              simpa [step, Alloc.release, idx, Alloc.at, hp] using this
        · cases z with
          | none => exact SpecStep.releaseNot o 4 hts rfl
          | some p =>
            by_cases hp : p = o
            · subst hp
              have e := ext x y none (fun u => if u = 4 then none else (Alloc.mk [x, y, some p]).owner u)
                rfl rfl rfl (fun u hu => by rw [if_neg (by omega), owner_oob _ _ hu])
              have := SpecStep.release (held := (Alloc.mk [x, y, some p]).owner) p 4 hts rfl
              rw [e] at this
              simpa [step, Alloc.release, idx, Alloc.at] using this
            · have := SpecStep.releaseOther (held := (Alloc.mk [x, y, some p]).owner) o p 4 hts rfl hp
              simpa [step, Alloc.release, idx, Alloc.at, hp] using this
      · simp only [step, Alloc.release, idx, if_neg hts]
        exact SpecStep.releaseInvalid o ts hts

private theorem run_refines_aux (ops : List Op) (a : Alloc) (h : a.owners.length = 3) :
    SpecRun a.owner (run a ops).2 (run a ops).1.owner := by
  induction ops generalizing a with
  | nil => exact SpecRun.nil _
  | cons op rest ih => exact SpecRun.cons (c05_step_refines a h op) (ih _ (step_length a op h))

/-- C05: after any history of calls from the initial allocator, `owner` is what the specification
derives from the calls and their results. -/
theorem c05_history_refines (ops : List Op) :
    SpecRun (fun _ => none) (run Alloc.init ops).2 (run Alloc.init ops).1.owner := by
  have h0 : Alloc.init.owner = fun _ => none := by
    funext u
    by_cases hu : 2 ≤ u ∧ u ≤ 4
    · have : u = 2 ∨ u = 3 ∨ u = 4 := by omega
      rcases this with rfl | rfl | rfl <;> rfl
    · exact owner_oob _ _ hu
  have := run_refines_aux ops Alloc.init rfl
  rwa [h0] at this

/-- Log entry which hands slot `ts` to `o`. -/
def Grants (e : Op × Out) (o : Owner) (ts : Nat) : Prop :=
  (e.1 = .allocateAny o ∧ e.2 = .slot (some ts)) ∨ (e.1 = .reserve o ts ∧ e.2 = .unit (.ok ()))

/-- Log entry in which `o` successfully gives slot `ts` back. -/
def Releases (e : Op × Out) (o : Owner) (ts : Nat) : Prop :=
  e.1 = .release o ts ∧ e.2 = .unit (.ok ())

private theorem spec_step_hold {held held' : Nat → Option Owner} {op : Op} {out : Out} {o : Owner} {ts : Nat}
    (h : SpecStep held op out held') (hh : held ts = some o) (hnr : ¬ Releases (op, out) o ts) :
    held' ts = some o := by
  cases h with
  | alloc o' ts' hr hf hl =>
    simp only; split
    · rename_i e; subst e; simp [hf] at hh
    · exact hh
  | allocFull => exact hh
  | reserve o' ts' hr hf =>
    simp only; split
    · rename_i e; subst e; simp [hf] at hh
    · exact hh
  | reserveInUse => exact hh
  | reserveInvalid => exact hh
  | release o' ts' hr hf =>
    simp only; split
    · rename_i e; subst e; rw [hf] at hh; simp at hh; subst hh; exact absurd ⟨rfl, rfl⟩ hnr
    · exact hh
  | releaseNot => exact hh
  | releaseOther => exact hh
  | releaseInvalid => exact hh

private theorem spec_run_hold {held held' : Nat → Option Owner} {log : List (Op × Out)} {o : Owner} {ts : Nat}
    (h : SpecRun held log held') (hh : held ts = some o) (hnr : ∀ e ∈ log, ¬ Releases e o ts) :
    held' ts = some o := by
  induction h with
  | nil => exact hh
  | cons hs _ ih =>
    exact ih (spec_step_hold hs hh (hnr _ (List.mem_cons_self ..)))
      (fun e he => hnr e (List.mem_cons_of_mem _ he))

private theorem specRun_append {l1 l2 : List (Op × Out)} : ∀ {held held' : Nat → Option Owner},
    SpecRun held (l1 ++ l2) held' → ∃ m, SpecRun held l1 m ∧ SpecRun m l2 held' := by
  induction l1 with
  | nil => intro held held' h; exact ⟨held, .nil _, h⟩
  | cons e l ih =>
    intro held held' h
    cases h with
    | cons hs hr => obtain ⟨m, h1, h2⟩ := ih hr; exact ⟨m, .cons hs h1, h2⟩

private theorem grants_spec {held held' : Nat → Option Owner} {e : Op × Out} {o : Owner} {ts : Nat}
    (h : SpecStep held e.1 e.2 held') (hg : Grants e o ts) :
    held ts = none ∧ held' ts = some o ∧ 2 ≤ ts ∧ ts ≤ 4 := by
  obtain ⟨op, out⟩ := e
  simp only at h
  rcases hg with ⟨h1, h2⟩ | ⟨h1, h2⟩ <;> simp only at h1 h2 <;> subst h1 h2 <;> cases h
  · rename_i hr hf hl; exact ⟨hf, by simp, hr⟩
  · rename_i hr hf; exact ⟨hf, by simp, hr⟩

/-- C05: no slot is handed out twice without a successful release by its first owner in between, and
only slots 2, 3, 4 are ever handed out. -/
theorem c05_no_double_grant (ops : List Op) (l1 l2 l3 : List (Op × Out)) (e1 e2 : Op × Out)
    (o p : Owner) (ts : Nat) (hlog : (run Alloc.init ops).2 = l1 ++ e1 :: (l2 ++ e2 :: l3))
    (h1 : Grants e1 o ts) (h2 : Grants e2 p ts) :
    (∃ e ∈ l2, Releases e o ts) ∧ 2 ≤ ts ∧ ts ≤ 4 := by
  have hr := c05_history_refines ops
  rw [hlog] at hr
  obtain ⟨m1, _, hr⟩ := specRun_append hr
  cases hr with
  | cons hs1 hr =>
    obtain ⟨m2, hr2, hr3⟩ := specRun_append hr
    obtain ⟨_, hh, hb⟩ := grants_spec hs1 h1
    refine ⟨?_, hb⟩
    apply Classical.byContradiction
    intro hn
    have := spec_run_hold hr2 hh (fun e he hre => hn ⟨e, he, hre⟩)
    cases hr3 with
    | cons hs2 _ =>
      have := (grants_spec hs2 h2).1
      simp_all

/-- C05: a slot someone holds stays held by that owner until that owner releases it. -/
theorem c05_ownership_stable (ops more : List Op) (o : Owner) (ts : Nat)
    (hh : (run Alloc.init ops).1.owner ts = some o)
    (hnr : ∀ e ∈ (run (run Alloc.init ops).1 more).2, ¬ Releases e o ts) :
    (run (run Alloc.init ops).1 more).1.owner ts = some o := by
  have hl : ∀ (ops : List Op) (a : Alloc), a.owners.length = 3 → (run a ops).1.owners.length = 3 := by
    intro ops; induction ops with
    | nil => intro a h; exact h
    | cons op rest ih => intro a h; exact ih _ (step_length a op h)
  exact spec_run_hold (run_refines_aux more _ (hl ops _ rfl)) hh hnr

/-- C05: after any history, a traffic timeslot said to be free is one which can be reserved, and one said not to be free cannot. -/
theorem c05_is_free (ops : List Op) (o : Owner) (ts : Nat) (h : 2 ≤ ts ∧ ts ≤ 4) :
    (run Alloc.init ops).1.isFree ts = true ↔ ((run Alloc.init ops).1.reserve o ts).2 = .ok () := by
  generalize (run Alloc.init ops).1 = a
  have e : idx ts = .ok (ts - 2) := by simp [idx, h]
  unfold Alloc.isFree Alloc.owner Alloc.reserve
  rw [e]
  simp only
  cases h : a.at (ts - 2) <;> simp

/-- Finding: any other number, such as that of the control channel, is said to be free although it is never given to anybody. -/
theorem c05_is_free_outside (ops : List Op) (o : Owner) (ts : Nat) (h : ¬ (2 ≤ ts ∧ ts ≤ 4)) :
    (run Alloc.init ops).1.isFree ts = true ∧ ((run Alloc.init ops).1.reserve o ts).2 = .error (.invalidTimeslot ts) := by
  have e : idx ts = .error (.invalidTimeslot ts) := by simp [idx, h]
  unfold Alloc.isFree Alloc.owner Alloc.reserve
  rw [e]
  exact ⟨rfl, rfl⟩

/-- A non-trivial history: both owners take slots, one is refused, releases, and the slot is reused. -/
example : (run Alloc.init [.allocateAny .brew, .reserve .cmce 2, .release .cmce 2, .release .brew 2,
    .allocateAny .cmce]).1.owner 2 = some .cmce := by decide
example : (run Alloc.init [.allocateAny .brew]).1.isFree 2 = false ∧ (run Alloc.init [.allocateAny .brew]).1.isFree 3 = true := by decide
example : Grants (.allocateAny .brew, (step Alloc.init (.allocateAny .brew)).2) .brew 2 := .inl ⟨rfl, rfl⟩

end Verif.TsAlloc
