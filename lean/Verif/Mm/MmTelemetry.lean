import Verif.Mm.MmProps
/-!
# C55: telemetry is exact as long as nobody leaves a single group
-/
namespace Verif.Mm
open Verif.Bits Verif.Codec Verif.TypedFields Verif.Config Verif.Cmce

/-- What telemetry shows of the groups after more was sent. -/
def telOn (t : Nat → Nat → Bool) (out : List MmOut) : Nat → Nat → Bool := (toTelemetry out).foldl telAttachedAfter t

/-- Telemetry shows nothing which is not held. -/
def TelBelow (s : Mm) (t : Nat → Nat → Bool) : Prop := ∀ i g, t i g = true → s.attached i g = true

/-- No entry asks to leave a group. -/
def NoDetach (xs : List GroupUplink) : Prop := ∀ x ∈ xs, x.detachment = none

theorem telOn_append (t : Nat → Nat → Bool) (a b : List MmOut) : telOn t (a ++ b) = telOn (telOn t a) b := by
  simp [telOn, toTelemetry, List.foldl_append]

theorem telOn_emit (c : Brew.Cfg) (u : SubUpdate) (t : Nat → Nat → Bool) : telOn t (emit c u) = t := by
  have : toTelemetry (emit c u) = [] := by
    unfold emit
    simp only [toTelemetry, List.filterMap_append]
    by_cases ha : Brew.isActive c = true
    · rw [if_pos ha]
      cases u with
      | register i => simp only; split <;> rfl
      | deregister i => simp only; split <;> rfl
      | affiliate i gs => simp only; split <;> rfl
      | deaffiliate i gs => simp only; split <;> rfl
    · rw [if_neg ha]; rfl
  simp [telOn, this]

theorem telOn_emitGroups (c : Brew.Cfg) (u : List Nat → SubUpdate) (gs : List Nat) (t : Nat → Nat → Bool) : telOn t (emitGroups c u gs) = t := by
  unfold emitGroups; split
  · rfl
  · exact telOn_emit c _ t

theorem telOn_tel (t : Nat → Nat → Bool) (e : TelEvent) : telOn t [.telemetry e] = telAttachedAfter t e := rfl
theorem telOn_answer (t : Nat → Nat → Bool) (h i : Nat) (b : List Bool) : telOn t [.answer h i b] = t := rfl
theorem telOn_nil (t : Nat → Nat → Bool) : telOn t [] = t := rfl

theorem tel_addClient {c : Brew.Cfg} {s : Mm} {j : Nat} {t : Nat → Nat → Bool} (hk : s.clients.get j = none) (h : TelBelow s t) :
    TelBelow (s.addClient c j).1 (telOn t (s.addClient c j).2) := by
  have e : telOn t (s.addClient c j).2 = t := by
    show telOn t ([MmOut.telemetry (.registration j)] ++ emit c (.register j)) = t
    rw [telOn_append, telOn_emit]; rfl
  rw [e]
  intro i g hg
  have := h i g hg
  by_cases hi : i = j
  · subst hi; simp [Mm.attached, Mm.groups, hk] at this
  · simpa [Mm.addClient, Mm.attached, Mm.groups, Assoc.get_insert, Assoc.get_erase, Ne.symm hi] using this

theorem tel_itsiDetach {c : Brew.Cfg} {s : Mm} {j : Nat} {t : Nat → Nat → Bool} (h : TelBelow s t) :
    TelBelow (s.itsiDetach c j).1 (telOn t (s.itsiDetach c j).2) := by
  unfold Mm.itsiDetach
  cases hk : s.clients.get j with
  | none => exact h
  | some gs =>
    have e : telOn t (.telemetry (.deregistration j) :: (emitGroups c (.deaffiliate j) gs ++ emit c (.deregister j))) =
        telAttachedAfter t (.deregistration j) := by
      show telOn t ([MmOut.telemetry (.deregistration j)] ++ (emitGroups c (.deaffiliate j) gs ++ emit c (.deregister j))) = _
      rw [telOn_append, telOn_append, telOn_emit, telOn_emitGroups]; rfl
    simp only [e]
    intro i g hg
    simp only [telAttachedAfter] at hg
    split at hg
    · cases hg
    · rename_i hi
      have := h i g hg
      simpa [Mm.attached, Mm.groups, Assoc.get_erase, Ne.symm hi] using this

theorem tel_startOver {c : Brew.Cfg} {s : Mm} {j : Nat} {t : Nat → Nat → Bool} (h : TelBelow s t) :
    TelBelow (s.startOver c j).1 (telOn t (s.startOver c j).2) := by
  unfold Mm.startOver
  cases hk : s.clients.get j with
  | none => exact tel_addClient hk h
  | some gs =>
    have e : telOn t (.telemetry (.groupDetach j gs) :: emitGroups c (.deaffiliate j) gs) = telAttachedAfter t (.groupDetach j gs) := by
      show telOn t ([MmOut.telemetry (.groupDetach j gs)] ++ emitGroups c (.deaffiliate j) gs) = _
      rw [telOn_append, telOn_emitGroups]; rfl
    simp only [e]
    intro i g hg
    simp only [telAttachedAfter] at hg
    split at hg
    · cases hg
    · rename_i hi
      have := h i g hg
      by_cases hj : i = j
      · subst hj
        simp only [Mm.attached, Mm.groups, hk, Option.getD_some, List.contains_iff_mem] at this
        exact (hi ⟨rfl, this⟩).elim
      · simpa [Mm.attached, Mm.groups, Assoc.get_insert, Ne.symm hj] using this

theorem word_attaches {x : GroupUplink} {g : Nat} {b : Bool} (h : x.detachment = none) (hw : x.word = some (g, b)) : b = true := by
  unfold GroupUplink.word at hw
  split at hw
  · cases hw; rw [h]; rfl
  · cases hw

theorem tel_entries {j : Nat} (xs : List GroupUplink) (hn : NoDetach xs) {a : Attaching} {t : Nat → Nat → Bool} (h : TelBelow a.mm (telOn t a.events)) :
    TelBelow (xs.foldl (Attaching.entry j) a).mm (telOn t (xs.foldl (Attaching.entry j) a).events) := by
  induction xs generalizing a with
  | nil => exact h
  | cons x xs ih =>
    rw [List.foldl_cons]
    apply ih fun y hy => hn y (by simp [hy])
    cases hc : a.mm.clients.get j with
    | none => rw [entry_none (.inr hc)]; exact h
    | some gs =>
      cases hx : x.word with
      | none => rw [entry_none (.inl hx)]; exact h
      | some p =>
        obtain ⟨g, b⟩ := p
        cases word_attaches (hn x (by simp)) hx
        rw [entry_some hx hc]
        simp only [if_true, telOn_append, telOn_tel]
        intro i k hk
        simp only [telAttachedAfter] at hk
        by_cases hj : i = j
        · subst hj
          simp only [Mm.attached, Mm.groups, Assoc.get_insert_self, Option.getD_some, mem_attachGroup]
          by_cases e : g = k
          · simp [e]
          · rw [if_neg e]
            rw [if_neg (by simp [Ne.symm e])] at hk
            have := h _ k hk
            simpa [Mm.attached, Mm.groups, hc] using this
        · rw [if_neg (by simp [hj])] at hk
          have := h i k hk
          simpa [Mm.attached, Mm.groups, Assoc.get_insert, Ne.symm hj] using this

theorem tel_attachDetach {c : Brew.Cfg} {s : Mm} {j : Nat} {xs : List GroupUplink} (hn : NoDetach xs) {t : Nat → Nat → Bool} (h : TelBelow s t) :
    TelBelow (s.attachDetach c j xs).1 (telOn t (s.attachDetach c j xs).2.1) := by
  unfold Mm.attachDetach
  simp only [telOn_append, telOn_emitGroups]
  exact tel_entries xs hn h

theorem tel_rx {c : Brew.Cfg} {s s' : Mm} {handle issi : Nat} {bits : List Bool} {out : List MmOut} {t : Nat → Nat → Bool}
    (hn : NoDetach (entriesOf bits)) (hb : TelBelow s t) (h : s.rx c handle issi bits = .ok (s', out)) : TelBelow s' (telOn t out) := by
  have hsame : ∀ {s' : Mm} {out : List MmOut}, (s', out) = (s, []) → TelBelow s' (telOn t out) := by
    intro s' out e; cases e; exact hb
  unfold Mm.rx at h
  split at h
  · simp only [Res.ok.injEq] at h; exact hsame h.symm
  simp only at h
  split at h
  · rcases onParsed_ok h with e | ⟨x, r, _, e⟩
    · exact hsame e
    · simp only [Res.ok.injEq] at e
      have := tel_itsiDetach (c := c) (j := issi) hb
      rw [e] at this
      exact this
  split at h
  · rename_i h2
    rcases onParsed_ok h with e | ⟨x, r, hp, e⟩
    · exact hsame e
    · simp only [entriesOf, h2, if_true, hp] at hn
      unfold Mm.locationUpdate at e
      split at e
      · simp only [Res.bind_eq_ok] at e
        obtain ⟨sdu, _, cmd, hcmd, e⟩ := e
        cases e
        have hcm : ∀ t, telOn t cmd = t := by
          intro t
          unfold sendCommand at hcmd
          split at hcmd
          · simp only [Res.bind_eq_ok] at hcmd
            obtain ⟨b, _, hb⟩ := hcmd
            cases hb; rfl
          · cases hcmd; rfl
        simp only [telOn_append, telOn_answer, hcm]
        have h1 : TelBelow (if (!s.known issi) = true then Mm.addClient c s issi else (s, [])).1
            (telOn t (if (!s.known issi) = true then Mm.addClient c s issi else (s, [])).2) := by
          split
          · rename_i hk
            refine tel_addClient ?_ hb
            simpa [Mm.known] using hk
          · exact hb
        revert hn
        match x.groupDemand with
        | none => exact fun _ => h1
        | some ⟨m, none⟩ => exact fun _ => h1
        | some ⟨m, some xs⟩ => exact fun hn => tel_attachDetach hn h1
      · cases e; exact hb
  split at h
  · rcases onParsed_ok h with e | ⟨x, r, _, e⟩
    · exact hsame e
    · simp only [Mm.status, Res.bind_eq_ok, Res.ok.injEq, Prod.mk.injEq] at e
      obtain ⟨b, _, rfl, rfl⟩ := e
      exact hb
  split at h
  · rename_i h2 _ h7
    rcases onParsed_ok h with e | ⟨x, r, hp, e⟩
    · exact hsame e
    · simp only [entriesOf, h2, h7, if_true, if_false, hp] at hn
      unfold Mm.groupReport at e
      split at e
      · cases e; exact hb
      · rename_i xs hxs
        rw [hxs] at hn
        simp only [Res.bind_eq_ok] at e
        obtain ⟨sdu, _, e⟩ := e
        cases e
        simp only [telOn_append, telOn_answer]
        refine tel_attachDetach hn ?_
        split
        · exact tel_startOver hb
        · exact hb
  · simp only [Res.ok.injEq] at h; exact hsame h.symm

/-- **C55.** Telemetry shows exactly the groups held, as long as no station leaves a single group: leaving all groups by a fresh
start, or by detaching from the network, is reported. -/
theorem c55_exact_partial {c : Brew.Cfg} {h : List (MmIn × List MmOut)} {s : Mm} (hr : MmRun c h s)
    (hn : ∀ x ∈ h, NoDetach (entriesOf x.1.bits)) (i g : Nat) : telAttached (toTelemetry (sent h)) i g = s.attached i g := by
  have hb : TelBelow s (telOn (fun _ _ => false) (sent h)) := by
    induction hr with
    | start => intro i g hg; cases hg
    | @step h s s' m out _ hx ih =>
      have hs : sent (h ++ [(m, out)]) = sent h ++ out := by simp [sent]
      rw [hs, telOn_append]
      exact tel_rx (hn (m, out) (by simp)) (ih fun x hx => hn x (by simp [hx])) hx
  rw [Bool.eq_iff_iff]
  exact ⟨hb i g, (c55_telemetry_partial hr).2 i g⟩

/-- Stations attaching, starting afresh and leaving altogether. -/
example : ∃ c h s, MmRun c h s ∧ (∀ x ∈ h, NoDetach (entriesOf x.1.bits)) ∧ s.attached 1000 92 = true ∧ s.attached 1000 91 = false := by
  let ms := [reportMsg 1000 true [⟨some 4, none, some 91, none, none⟩], reportMsg 1000 true [⟨some 4, none, some 92, none, none⟩]]
  obtain ⟨h, s, h1, h2, h3⟩ := replay_run (c := ⟨none, []⟩) ms .start (show replay _ (fun s _ =>
    s.attached 1000 92 && !s.attached 1000 91) _ _ _ = true by decide +kernel)
  simp only [Bool.and_eq_true, Bool.not_eq_true'] at h3
  refine ⟨_, h, s, h1, fun x hx => ?_, h3⟩
  have hm : x.1 ∈ ms := by
    have := List.mem_map_of_mem (f := Prod.fst) hx
    rwa [h2] at this
  have hall : ms.all (fun m => (entriesOf m.bits).all fun x => x.detachment.isNone) = true := by decide +kernel
  intro y hy
  have := List.all_eq_true.1 (List.all_eq_true.1 hall _ hm) y hy
  simpa using this

end Verif.Mm
