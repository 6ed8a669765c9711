import Verif.Brew.Routable
import Verif.Core.RangesProps
/-!
# C34 — Backhaul routing decisions
-/
namespace Verif.Brew


/-- The documented rules for a group number. `locals` is the list of ranges as written in the
configuration, each with its first number and the number after its last. -/
def GroupAllowed (b : BrewCfg) (locals : List Ranges.Range) (ssi : Nat) : Prop :=
  (b.host = "core.tetrapack.online" → 90 < ssi) ∧
  (∀ r ∈ locals, ¬ (r.start ≤ ssi ∧ ssi < r.end)) ∧
  (∀ w, b.whitelistedSsis = some w → ssi ∈ w)

/-- **C34, groups.** For every configuration whose local ranges were accepted, a group number is routed to
the backhaul exactly when there is a backhaul and the rules allow it. -/
theorem c34_group (c : Cfg) (locals : List Ranges.Range) (hl : Ranges.fromVec locals = .ok c.localSsiRanges) (ssi : Nat) :
    gssiRoutable c ssi = true ↔ ∃ b, c.brew = some b ∧ GroupAllowed b locals ssi := by
  have hr := Ranges.c07_contains_exact locals c.localSsiRanges hl ssi
  unfold gssiRoutable GroupAllowed
  cases hb : c.brew with
  | none => simp
  | some b =>
    have htp : isTetrapack c = true ↔ b.host = "core.tetrapack.online" := by simp [isTetrapack, hb]
    have hin : (∀ r ∈ locals, ¬ (r.start ≤ ssi ∧ ssi < r.end)) ↔ ¬ Ranges.contains c.localSsiRanges ssi = true := by
      rw [hr]
      simp only [Ranges.InSome, not_exists, not_and]
    simp only [Option.some.injEq, exists_eq_left', hin, Bool.and_eq_true, decide_eq_true_eq, htp]
    by_cases h1 : b.host = "core.tetrapack.online" ∧ ssi ≤ 90
    · rw [if_pos h1]
      simp only [Bool.false_eq_true, false_iff, not_and]
      intro h2
      have := h2 h1.1
      omega
    · rw [if_neg h1]
      have h1' : b.host = "core.tetrapack.online" → 90 < ssi := by
        intro h; apply Classical.byContradiction; intro hh; exact h1 ⟨h, by omega⟩
      by_cases h2 : Ranges.contains c.localSsiRanges ssi = true
      · simp [h2]
      · cases hw : b.whitelistedSsis <;> simp [h2]
        · exact h1'
        · exact fun _ => h1'

/-- **C34, individuals.** Routed exactly when there is a backhaul and, on TetraPack, the number has seven
digits. -/
theorem c34_individual (c : Cfg) (issi : Nat) :
    issiRoutable c issi = true ↔
      ∃ b, c.brew = some b ∧ (b.host = "core.tetrapack.online" → 10 ^ 6 ≤ issi ∧ issi < 10 ^ 7) := by
  unfold issiRoutable
  cases hb : c.brew with
  | none => simp
  | some b =>
    have htp : isTetrapack c = true ↔ b.host = "core.tetrapack.online" := by simp [isTetrapack, hb]
    by_cases h1 : b.host = "core.tetrapack.online"
    · rw [if_neg (by simp), if_pos (htp.2 h1)]
      simp [h1]
      omega
    · rw [if_neg (by simp), if_neg (fun h => h1 (htp.1 h))]
      simp [h1]

/-- **C34, no backhaul.** Nothing is routed when no backhaul is configured. -/
theorem c34_inactive (c : Cfg) (h : c.brew = none) (n : Nat) :
    gssiRoutable c n = false ∧ issiRoutable c n = false ∧ tetrapackServiceIssi c n = false ∧
    featureSdsEnabled c = false ∧ isActive c = false := by
  simp [gssiRoutable, issiRoutable, tetrapackServiceIssi, isTetrapack, featureSdsEnabled, isActive, h]

/-- **C34, services.** The two service numbers of TetraPack are taken as such exactly on TetraPack. They are not seven digits long, so
that the extra rule for them is not redundant. -/
theorem c34_service (c : Cfg) (n : Nat) :
    (tetrapackServiceIssi c n = true ↔
      (n = 200999 ∨ n = 262993) ∧ ∃ b, c.brew = some b ∧ b.host = "core.tetrapack.online") ∧
    (tetrapackServiceIssi c n = true → issiRoutable c n = false) := by
  have h : tetrapackServiceIssi c n = true ↔
      (n = 200999 ∨ n = 262993) ∧ ∃ b, c.brew = some b ∧ b.host = "core.tetrapack.online" := by
    simp only [tetrapackServiceIssi, Bool.and_eq_true]
    cases hb : c.brew with
    | none => simp [isTetrapack, hb]
    | some b => simp [isTetrapack, hb, and_comm]
  refine ⟨h, fun h1 => ?_⟩
  obtain ⟨h2, b, hb, ht⟩ := h.1 h1
  have h3 : isTetrapack c = true := by simp [isTetrapack, hb, ht]
  rcases h2 with rfl | rfl <;> simp [issiRoutable, hb, h3]

/-- A configuration with a local range, a whitelist and TetraPack: 91 and 200 are listed, 200 is local. -/
example : (∃ s, Ranges.fromVec [⟨150, 250⟩] = .ok s ∧
    gssiRoutable ⟨some ⟨"core.tetrapack.online", some [91, 200], true⟩, s⟩ 91 = true ∧
    gssiRoutable ⟨some ⟨"core.tetrapack.online", some [91, 200], true⟩, s⟩ 200 = false ∧
    gssiRoutable ⟨some ⟨"core.tetrapack.online", some [91, 200], true⟩, s⟩ 92 = false) :=
  ⟨[⟨150, 250⟩], by simp [Ranges.fromVec, List.mergeSort, Ranges.check, Res.assert], by decide, by decide, by decide⟩

end Verif.Brew
