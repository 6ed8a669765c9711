import Verif.Cmce.CallMembers
/-!
# C30: who listens to a group, and calls nobody listens to
-/
namespace Verif.Cmce
open Tdma

/-- **C30, counts.** The number of listeners held for a group is the number of stations affiliated to it according to the
updates so far, each counted once. -/
theorem c30_count {r : Nat → Bool} {h : List (CcEv × List CcOut)} {s : Cc} (hr : CcRun r h s) (g : Nat) :
    ∃ stations : List Nat, stations.Nodup ∧ (∀ i, i ∈ stations ↔ affiliated (updates h) i g = true) ∧
      (s.listeners.get g).getD 0 = stations.length := by
  obtain ⟨h1, _, h3⟩ := ccRun_members hr
  refine ⟨(s.groups.filter (fun e => e.2.contains g)).map Prod.fst, ?_, ?_, ?_⟩
  · exact (List.filter_sublist.map _).nodup h1.ok
  · intro i
    rw [h3, decide_eq_true_iff]
    simp only [List.mem_map, List.mem_filter, List.contains_iff_mem, groupsOf]
    constructor
    · rintro ⟨⟨j, l⟩, ⟨hm, hg⟩, rfl⟩
      rw [Assoc.get_of_mem h1.ok hm]; exact hg
    · intro hg
      cases hx : s.groups.get i with
      | none => rw [hx] at hg; cases hg
      | some l => rw [hx] at hg; exact ⟨(i, l), ⟨Assoc.mem_of_get hx, hg⟩, rfl⟩
  · have := h1.count g
    simp only [cnt, membersOf] at this
    rw [this, List.length_map, List.countP_eq_length_filter]

/-- A group has a listener exactly if some station is affiliated to it. -/
theorem c30_listener {r : Nat → Bool} {h : List (CcEv × List CcOut)} {s : Cc} (hr : CcRun r h s) (g : Nat) :
    s.hasListener g = true ↔ ∃ i, affiliated (updates h) i g = true := by
  obtain ⟨L, _, h2, h3⟩ := c30_count hr g
  rw [hasListener_cnt, cnt, h3, List.length_pos_iff_exists_mem]
  simp only [h2]

/-- **C30, calls.** Every call, local or from the network, is to a group with an affiliated station. -/
theorem c30_calls {r : Nat → Bool} {h : List (CcEv × List CcOut)} {s : Cc} (hr : CcRun r h s) {id : Nat} {c : Call}
    (hc : s.calls.get id = some c) : ∃ i, affiliated (updates h) i c.gssi = true :=
  (c30_listener hr _).1 ((ccRun_members hr).2.1 id c hc)

/-- **C30, updates.** An update ends exactly the calls to groups to which no station is affiliated any more, and leaves the
others as they are. -/
theorem c30_update {r : Nat → Bool} {h : List (CcEv × List CcOut)} {s : Cc} (hr : CcRun r h s) (u : SubUpdate) :
    ∃ s' out, s.step (.update u) = .ok (s', out) ∧ ∀ id,
      (∀ c, s'.calls.get id = some c ↔ s.calls.get id = some c ∧ ∃ i, affiliated (updates h ++ [u]) i c.gssi = true) := by
  have hi := ccRun_inv hr
  obtain ⟨s', out, h1, _⟩ := update_prims hi u
  have hs : s.step (.update u) = .ok (s', out) := h1
  have hr' := CcRun.step hr hs
  have hu : updates (h ++ [(.update u, out)]) = updates h ++ [u] := by simp [updates]
  obtain ⟨m1, m2, _⟩ := ccRun_members hr
  obtain ⟨_, _, a3⟩ := update_members hi m1 m2 h1
  refine ⟨s', out, hs, ?_⟩
  intro id c
  have hl := c30_listener hr' c.gssi
  rw [hu] at hl
  rw [← hl, a3]
  cases hc : s.calls.get id with
  | none => simp
  | some d =>
    simp only [Option.some.injEq]
    by_cases hd : s'.hasListener d.gssi = false
    · rw [if_pos hd]
      constructor
      · intro h; cases h
      · rintro ⟨rfl, h⟩; rw [hd] at h; cases h
    · rw [if_neg hd]
      simp only [Option.some.injEq]
      constructor
      · rintro rfl; exact ⟨rfl, by simpa using hd⟩
      · exact And.left

/-- **C30, no call without a listener.** A call to a group without affiliated stations is not set up: a station's request is
ignored, the network is told that its call is over, and nothing changes. -/
theorem c30_refused {r : Nat → Bool} {h : List (CcEv × List CcOut)} {s : Cc} (hr : CcRun r h s) {g : Nat}
    (hg : ∀ i, affiliated (updates h) i g = false) :
    (∀ caller sup comm, s.step (.uSetup caller sup (some g) comm) = .ok (s, [])) ∧
    (r g = true → ∀ uuid speaker, s.step (.netStart uuid speaker g) = .ok (s, [.netCallEnd uuid])) := by
  have hl : s.hasListener g = false := by
    cases hx : s.hasListener g with
    | false => rfl
    | true =>
      obtain ⟨i, hi⟩ := (c30_listener hr g).1 hx
      rw [hg] at hi; cases hi
  refine ⟨?_, ?_⟩
  · intro caller sup comm
    simp only [Cc.step, Cc.setup, hl]
    split <;> rfl
  · intro hrg uuid speaker
    have hnone : s.calls.filter (fun e => e.2.gssi = g) = [] := by
      rw [List.filter_eq_nil_iff]
      rintro ⟨id, c⟩ hm
      simp only [decide_eq_true_eq]
      rintro rfl
      have := (ccRun_members hr).2.1 id c (Assoc.get_of_mem (ccRun_inv hr).ok hm)
      rw [hl] at this; cases this
    simp only [Cc.step, Cc.netStart, ccRun_routable hr, hrg, hl, if_true, Cc.dropUnlistened, hnone, Cc.dropLoop]
    rfl

end Verif.Cmce
