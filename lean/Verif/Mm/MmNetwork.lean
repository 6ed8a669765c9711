import Verif.Mm.MmProps
import Verif.Brew.LinkProps
/-!
# From the mobiles to the network (C64)

Mobility management (MmBs) hears the mobiles and sends updates to the backhaul entity, which passes them through the worker thread
to the server (Link). Taken together: the server knows of the stations and groups the mobiles have told the cell.
-/
namespace Verif.Mm
open Verif.Bits Verif.Codec Verif.TypedFields Verif.Config Verif.Cmce

/-! ## Only registered stations are said to join groups -/

/-- Every station which joins a group, of those which count, is registered then. -/
def Orderly (counts : Nat → Bool) : (Nat → Bool) → List SubUpdate → Prop
  | _, [] => True
  | t, u :: us => (∀ i gs, u = .affiliate i gs → counts i = true → t i = true) ∧ Orderly counts (registeredAfter t u) us

theorem orderly_append {counts t : Nat → Bool} {a b : List SubUpdate} :
    Orderly counts t (a ++ b) ↔ Orderly counts t a ∧ Orderly counts (a.foldl registeredAfter t) b := by
  induction a generalizing t with
  | nil => simp [Orderly]
  | cons u us ih => simp [Orderly, ih, and_assoc]

/-- From one state to another, with what call control is told. -/
structure Told (s : Mm) (out : List MmOut) (s' : Mm) : Prop where
  orderly : Orderly (fun _ => true) s.known (toCmce out)
  known : (toCmce out).foldl registeredAfter s.known = s'.known

theorem Told.nil {s : Mm} : Told s [] s := ⟨trivial, rfl⟩

theorem Told.append {s s1 s2 : Mm} {a b : List MmOut} (ha : Told s a s1) (hb : Told s1 b s2) : Told s (a ++ b) s2 := by
  have e : toCmce (a ++ b) = toCmce a ++ toCmce b := by simp [toCmce]
  refine ⟨?_, ?_⟩
  · rw [e, orderly_append, ha.known]; exact ⟨ha.orderly, hb.orderly⟩
  · rw [e, List.foldl_append, ha.known, hb.known]

theorem Told.silent {s : Mm} {out : List MmOut} (h : toCmce out = []) : Told s out s := by
  refine ⟨?_, ?_⟩ <;> rw [h]
  · trivial
  · rfl

theorem toCmce_emit (c : Brew.Cfg) (u : SubUpdate) : toCmce (emit c u) = [u] := by
  unfold emit
  by_cases ha : Brew.isActive c = true
  · simp only [ha, if_true]
    cases u <;> simp only <;> split <;> rfl
  · simp only [ha]; rfl

theorem toCmce_emitGroups (c : Brew.Cfg) (u : List Nat → SubUpdate) (gs : List Nat) :
    toCmce (emitGroups c u gs) = if gs = [] then [] else [u gs] := by
  unfold emitGroups
  cases gs with
  | nil => rfl
  | cons g gs => simpa using toCmce_emit c _

theorem told_addClient (c : Brew.Cfg) (s : Mm) (j : Nat) : Told s (s.addClient c j).2 (s.addClient c j).1 := by
  have e : toCmce (s.addClient c j).2 = [.register j] := toCmce_emit c (.register j)
  refine ⟨by rw [e]; simp [Orderly], ?_⟩
  rw [e]
  funext i
  simp only [List.foldl_cons, List.foldl_nil, registeredAfter, Mm.addClient, Mm.known, Assoc.get_insert, Assoc.get_erase]
  by_cases h : i = j
  · simp [h]
  · simp [h, Ne.symm h]

theorem told_itsiDetach (c : Brew.Cfg) (s : Mm) (j : Nat) : Told s (s.itsiDetach c j).2 (s.itsiDetach c j).1 := by
  unfold Mm.itsiDetach
  cases hg : s.clients.get j with
  | none => exact .nil
  | some gs =>
    have e : toCmce (.telemetry (.deregistration j) :: (emitGroups c (.deaffiliate j) gs ++ emit c (.deregister j))) =
        (if gs = [] then [] else [.deaffiliate j gs]) ++ [.deregister j] := by
      rw [← toCmce_emitGroups c, ← toCmce_emit c]; simp [toCmce]
    refine ⟨?_, ?_⟩
    · rw [e]; split <;> simp [Orderly]
    · rw [e]
      funext i
      have : ∀ t : Nat → Bool, ((if gs = [] then [] else [SubUpdate.deaffiliate j gs]) ++ [SubUpdate.deregister j]).foldl registeredAfter t =
          registeredAfter t (.deregister j) := by intro t; split <;> rfl
      rw [this]
      simp only [registeredAfter, Mm.known, Assoc.get_erase]
      by_cases h : i = j
      · simp [h]
      · simp [h, Ne.symm h]

theorem told_startOver (c : Brew.Cfg) (s : Mm) (j : Nat) : Told s (s.startOver c j).2 (s.startOver c j).1 := by
  unfold Mm.startOver
  cases hg : s.clients.get j with
  | none => exact told_addClient c s j
  | some gs =>
    have e : toCmce (.telemetry (.groupDetach j gs) :: emitGroups c (.deaffiliate j) gs) = if gs = [] then [] else [.deaffiliate j gs] :=
      toCmce_emitGroups c _ _
    refine ⟨?_, ?_⟩
    · rw [e]; split <;> simp [Orderly]
    · rw [e]
      funext i
      have : ∀ t : Nat → Bool, (if gs = [] then [] else [SubUpdate.deaffiliate j gs]).foldl registeredAfter t = t := by
        intro t; split <;> rfl
      rw [this]
      simp only [Mm.known, Assoc.get_insert]
      by_cases h : j = i
      · subst h; simp [hg]
      · simp [h]

theorem told_attachDetach (c : Brew.Cfg) {s : Mm} {w : World} (h : Fits c s w) (j : Nat) (xs : List GroupUplink) :
    Told s (s.attachDetach c j xs).2.1 (s.attachDetach c j xs).1 := by
  unfold Mm.attachDetach
  cases hc : s.clients.get j with
  | none => rw [entries_unknown xs hc]; exact .nil
  | some gs =>
    have hl := loop_entries xs (loop_start h hc)
    revert hl
    generalize xs.foldl (Attaching.entry j) ⟨s, [], [], [], []⟩ = a
    intro hl
    have hq : toCmce a.events = [] := by
      unfold toCmce
      rw [List.filterMap_eq_nil_iff]
      intro o ho
      obtain ⟨g, rfl⟩ := hl.quiet o ho
      rfl
    have e : toCmce (a.events ++ emitGroups c (.affiliate j) a.aff ++ emitGroups c (.deaffiliate j) a.deaff) =
        (if a.aff = [] then [] else [.affiliate j a.aff]) ++ if a.deaff = [] then [] else [.deaffiliate j a.deaff] := by
      rw [← toCmce_emitGroups c, ← toCmce_emitGroups c]
      rw [show ∀ x y : List MmOut, toCmce (a.events ++ x ++ y) = toCmce a.events ++ toCmce x ++ toCmce y by intro x y; simp [toCmce], hq]
      rfl
    refine ⟨?_, ?_⟩
    · simp only [e]
      have hk : s.known j = true := known_eq hc
      split <;> split <;> simp [Orderly, registeredAfter, hk]
    · simp only [e]
      have : ∀ t : Nat → Bool, ((if a.aff = [] then [] else [SubUpdate.affiliate j a.aff]) ++
          if a.deaff = [] then [] else [SubUpdate.deaffiliate j a.deaff]).foldl registeredAfter t = t := by
        intro t; split <;> split <;> rfl
      rw [this]
      funext i
      by_cases e : i = j
      · subst e
        obtain ⟨gs', hg'⟩ := hl.client
        rw [known_eq hg', known_eq hc]
      · simp only [Mm.known, hl.other i e]

theorem told_rx {c : Brew.Cfg} {s s' : Mm} {w : World} {hd j : Nat} {bits : List Bool} {out : List MmOut}
    (h : Fits c s w) (hr : s.rx c hd j bits = .ok (s', out)) : Told s out s' := by
  have hsame : ∀ {s' : Mm} {out : List MmOut}, (s', out) = (s, []) → Told s out s' := by
    intro s' out e
    cases e
    exact .nil
  unfold Mm.rx at hr
  split at hr
  · simp only [Res.ok.injEq] at hr; exact hsame hr.symm
  simp only at hr
  split at hr
  · rcases onParsed_ok hr with e | ⟨x, r, _, e⟩
    · exact hsame e
    · simp only [Res.ok.injEq] at e
      have := told_itsiDetach c s j
      rwa [e] at this
  split at hr
  · rcases onParsed_ok hr with e | ⟨x, r, hp, e⟩
    · exact hsame e
    · unfold Mm.locationUpdate at e
      split at e
      · simp only [Res.bind_eq_ok, Res.ok.injEq, Prod.mk.injEq] at e
        obtain ⟨sdu, _, cmd, hcmd, rfl, rfl⟩ := e
        have hcm : toCmce cmd = [] := by
          unfold sendCommand at hcmd
          split at hcmd
          · simp only [Res.bind_eq_ok, Res.ok.injEq] at hcmd
            obtain ⟨b, _, rfl⟩ := hcmd
            rfl
          · simp only [Res.ok.injEq] at hcmd; subst hcmd; rfl
        have hdem : ∀ {s : Mm} {w : World}, Fits c s w → ∀ d, Told s (s.demandGroups c j d).2.1 (s.demandGroups c j d).1 := by
          intro s w h d
          match d with
          | none => exact .nil
          | some ⟨m, none⟩ => exact .nil
          | some ⟨m, some xs⟩ => exact told_attachDetach c h j xs
        refine .append (.append (.append (s1 := (if (!s.known j) = true then s.addClient c j else (s, [])).1) ?_ ?_)
          (.silent rfl)) (.silent hcm)
        · split
          · exact told_addClient c s j
          · exact .nil
        · cases hk : s.clients.get j with
          | none =>
            have hkn : s.known j = false := by simp [Mm.known, hk]
            simp only [hkn, Bool.not_false, if_true]
            exact hdem (fits_addClient h hk).1 _
          | some gs =>
            have hkn : s.known j = true := by simp [Mm.known, hk]
            simp only [hkn, Bool.not_true, Bool.false_eq_true, if_false]
            exact hdem h _
      · simp only [Res.ok.injEq] at e; exact hsame e.symm
  split at hr
  · rcases onParsed_ok hr with e | ⟨x, r, _, e⟩
    · exact hsame e
    · simp only [Mm.status, Res.bind_eq_ok, Res.ok.injEq, Prod.mk.injEq] at e
      obtain ⟨b, _, rfl, rfl⟩ := e
      exact .silent rfl
  split at hr
  · rcases onParsed_ok hr with e | ⟨x, r, hp, e⟩
    · exact hsame e
    · unfold Mm.groupReport at e
      split at e
      · simp only [Res.ok.injEq] at e; exact hsame e.symm
      · rename_i xs hx
        simp only [Res.bind_eq_ok, Res.ok.injEq, Prod.mk.injEq] at e
        obtain ⟨sdu, _, rfl, rfl⟩ := e
        refine .append (.append (s1 := (if x.mode = true then s.startOver c j else (s, [])).1) ?_ ?_) (.silent rfl)
        · split
          · exact told_startOver c s j
          · exact .nil
        · cases hm : x.mode with
          | true => simp only [if_true]; exact told_attachDetach c (fits_startOver h j).1 j xs
          | false => simp only [Bool.false_eq_true, if_false]; exact told_attachDetach c h j xs
  · simp only [Res.ok.injEq] at hr; exact hsame hr.symm

theorem told_run {c : Brew.Cfg} {h : List (MmIn × List MmOut)} {s : Mm} (hr : MmRun c h s) : Told Mm.new (sent h) s := by
  induction hr with
  | start => exact .nil
  | @step h s s' m out hr hx ih =>
    have hs : sent (h ++ [(m, out)]) = sent h ++ out := by simp [sent]
    rw [hs]
    exact ih.append (told_rx (run_fits hr).1 hx)

/-! ## The same of the backhaul -/

theorem mirrors_run {c : Brew.Cfg} {h : List (MmIn × List MmOut)} {s : Mm} (hr : MmRun c h s) : Mirrors c (sent h) := by
  induction hr with
  | start => exact mirrors_nil
  | @step h s s' m out hr hx ih =>
    have hs : sent (h ++ [(m, out)]) = sent h ++ out := by simp [sent]
    rw [hs]
    exact mirrors_append ih (mirrors_rx hx)

theorem orderly_brew (c : Brew.Cfg) {us : List SubUpdate} {t tb : Nat → Bool} (h : Orderly (fun _ => true) t us)
    (ht : ∀ i, Brew.issiRoutable c i = true → tb i = t i) : Orderly (Brew.issiRoutable c) tb (us.flatMap (brewPart c)) := by
  induction us generalizing t tb with
  | nil => trivial
  | cons u us ih =>
    obtain ⟨h1, h2⟩ := h
    rw [List.flatMap_cons, orderly_append]
    cases u with
    | register j =>
      simp only [brewPart]
      split
      · refine ⟨by simp [Orderly], ih h2 fun i hi => ?_⟩
        simp only [List.foldl_cons, List.foldl_nil, registeredAfter, ht i hi]
      · rename_i hj
        refine ⟨trivial, ih h2 fun i hi => ?_⟩
        have : i ≠ j := by rintro rfl; exact hj hi
        simp only [List.foldl_nil, registeredAfter, if_neg this, ht i hi]
    | deregister j =>
      simp only [brewPart]
      split
      · refine ⟨by simp [Orderly], ih h2 fun i hi => ?_⟩
        simp only [List.foldl_cons, List.foldl_nil, registeredAfter, ht i hi]
      · rename_i hj
        refine ⟨trivial, ih h2 fun i hi => ?_⟩
        have : i ≠ j := by rintro rfl; exact hj hi
        simp only [List.foldl_nil, registeredAfter, if_neg this, ht i hi]
    | affiliate j gs =>
      simp only [brewPart]
      split
      · exact ⟨trivial, ih h2 ht⟩
      · refine ⟨⟨?_, trivial⟩, ih h2 ht⟩
        intro i gs' e hi
        cases e
        rw [ht _ hi]
        exact h1 _ _ rfl rfl
    | deaffiliate j gs =>
      simp only [brewPart]
      split
      · exact ⟨trivial, ih h2 ht⟩
      · exact ⟨by simp [Orderly], ih h2 ht⟩

/-- A register filled in good order holds the registered stations of those which count, and their groups. -/
theorem register_eq {counts : Nat → Bool} {us : List SubUpdate} {t : Nat → Bool} {a : Nat → Nat → Bool} {r : Brew.Reg}
    (h : Orderly counts t us) (h1 : ∀ i, counts i = true → (r.here i ↔ t i = true)) (h2 : ∀ i g, r.member i g ↔ a i g = true) :
    (∀ i, counts i = true → ((r.applyAll (us.map Brew.updateOp)).here i ↔ us.foldl registeredAfter t i = true)) ∧
    ∀ i g, (r.applyAll (us.map Brew.updateOp)).member i g ↔ us.foldl affiliatedAfter a i g = true := by
  induction us generalizing t a r with
  | nil => exact ⟨h1, h2⟩
  | cons u us ih =>
    obtain ⟨o1, o2⟩ := h
    rw [List.map_cons]
    refine ih (t := registeredAfter t u) (a := affiliatedAfter a u) (r := r.apply (Brew.updateOp u)) o2 ?_ ?_
    · intro i hi
      cases u with
      | register j =>
        simp only [Brew.updateOp, Brew.Reg.apply, registeredAfter, h1 i hi]
        by_cases e : i = j <;> simp [e]
      | deregister j =>
        simp only [Brew.updateOp, Brew.Reg.apply, registeredAfter, h1 i hi]
        by_cases e : i = j <;> simp [e]
      | affiliate j gs =>
        simp only [Brew.updateOp, Brew.Reg.apply, registeredAfter, h1 i hi]
        refine ⟨?_, .inl⟩
        rintro (h | rfl)
        · exact h
        · exact o1 _ _ rfl hi
      | deaffiliate j gs => exact h1 i hi
    · intro i g
      cases u with
      | register j => exact h2 i g
      | deregister j =>
        simp only [Brew.updateOp, Brew.Reg.apply, affiliatedAfter, h2 i g]
        by_cases e : i = j <;> simp [e]
      | affiliate j gs =>
        simp only [Brew.updateOp, Brew.Reg.apply, affiliatedAfter, h2 i g]
        by_cases e : i = j ∧ g ∈ gs <;> simp [e]
      | deaffiliate j gs =>
        simp only [Brew.updateOp, Brew.Reg.apply, affiliatedAfter, h2 i g]
        by_cases e : i = j ∧ g ∈ gs
        · simp [e]
        · simp [e]

theorem present_eq {c : Brew.Cfg} {h : List (MmIn × List MmOut)} {s : Mm} (hr : MmRun c h s) (ha : Brew.isActive c = true)
    {hl : List Brew.LinkEv} (hu : Brew.linkUpdates hl = toBrew (sent h)) :
    (∀ i, Brew.issiRoutable c i = true → ((Brew.present hl).here i ↔ s.known i = true)) ∧
    ∀ i g, (Brew.present hl).member i g ↔ affiliated (toCmce (sent h)) i g = true ∧ Brew.gssiRoutable c g = true := by
  have hm := mirrors_run hr
  rw [Mirrors, if_pos ha] at hm
  have ho := orderly_brew c (tb := fun _ => false) (told_run hr).orderly (fun _ _ => rfl)
  rw [← hm] at ho
  obtain ⟨k1, k2⟩ := register_eq (r := .none) (a := fun _ _ => false) ho (by simp [Brew.Reg.none]) (by simp [Brew.Reg.none])
  obtain ⟨b1, b2⟩ := c54_backhaul hr ha
  unfold Brew.present
  rw [hu]
  refine ⟨fun i hi => ?_, fun i g => ?_⟩
  · rw [k1 i hi]
    have := b1 i
    unfold registered at this
    rw [this, hi, Bool.and_true]
  · rw [k2 i g]
    have := b2 i g
    unfold affiliated at this
    rw [this, Bool.and_eq_true]
    rfl

/-! ## C64 -/

/-- **C64.** When what mobility management sent has been carried to the server, the server knows exactly the stations registered
with the cell whose numbers are routed over the network; and it counts no station as member of a group it is not attached to,
nor of a group not routed over the network. -/
theorem c64_network {c : Brew.Cfg} {h : List (MmIn × List MmOut)} {s : Mm} (hr : MmRun c h s) (ha : Brew.isActive c = true)
    {utf8 : List Nat → Bool} {latency : Nat} {hl : List Brew.LinkEv} {l : Brew.Link} (hlr : Brew.LinkRun utf8 c latency hl l)
    (hu : Brew.linkUpdates hl = toBrew (sent h)) (hup : l.up = true) (hw : l.whole = true) (hc : l.cmds = [])
    (he : .connected ∉ l.evs) :
    (∀ n, (Brew.known utf8 l.heard).here n ↔ s.known n = true ∧ Brew.issiRoutable c n = true) ∧
    ∀ n g, (Brew.known utf8 l.heard).member n g →
      s.attached n g = true ∧ Brew.gssiRoutable c g = true ∧ Brew.issiRoutable c n = true := by
  obtain ⟨h1, h2⟩ := Brew.c60_subscribers hlr hup hw hc he
  obtain ⟨p1, p2⟩ := present_eq hr ha hu
  refine ⟨fun n => ?_, fun n g hm => ?_⟩
  · rw [h1]
    exact and_congr_left fun hn => p1 n hn
  · obtain ⟨m1, m2⟩ := (h2 n g).1 hm
    obtain ⟨m3, m4⟩ := (p2 n g).1 m1
    exact ⟨(c32_never_more hr).1 n g m3, m4, m2⟩

/-- **C64, partial.** Of their groups it knows exactly those routed over the network, as long as no message of a mobile detaches a
group and later attaches the same group again. Missing: those messages, for which it is false (`c64_reattach_lost`). -/
theorem c64_groups_partial {c : Brew.Cfg} {h : List (MmIn × List MmOut)} {s : Mm} (hr : MmRun c h s) (ha : Brew.isActive c = true)
    (hn : ∀ x ∈ h, NoReattach (entriesOf x.1.bits))
    {utf8 : List Nat → Bool} {latency : Nat} {hl : List Brew.LinkEv} {l : Brew.Link} (hlr : Brew.LinkRun utf8 c latency hl l)
    (hu : Brew.linkUpdates hl = toBrew (sent h)) (hup : l.up = true) (hw : l.whole = true) (hc : l.cmds = [])
    (he : .connected ∉ l.evs) (n g : Nat) : (Brew.known utf8 l.heard).member n g ↔
      s.attached n g = true ∧ Brew.gssiRoutable c g = true ∧ Brew.issiRoutable c n = true := by
  rw [(Brew.c60_subscribers hlr hup hw hc he).2 n g, (present_eq hr ha hu).2 n g, c32_agree_partial hr hn, and_assoc]

/-! ### A message which attaches again what it detached -/

/-- The operator's network is on; every number below is routed over it. -/
def openCfg : Brew.Cfg := ⟨some ⟨"example", none, true⟩, []⟩

/-- A connection is made, the updates arrive, the worker takes `n` commands. -/
def linkHistory (us : List SubUpdate) (n : Nat) : List Brew.LinkEv :=
  [.connect, .deliver (fun _ => true) 0 0] ++ us.map (fun u => .entity (.update u)) ++ List.replicate n (.exec ⟨0, 0⟩ fun _ => true)

/-- What the backhaul is told in `reattachHistory`. -/
def reattachUpdates : List SubUpdate := [.register 1000, .affiliate 1000 [91], .affiliate 1000 [91], .deaffiliate 1000 [91]]

/-- **Finding (C64).** A mobile detaches a group and attaches it again in one message. The cell holds it attached; the network,
everything delivered, does not, although both numbers are routed. -/
theorem c64_reattach_lost : ∃ c h s, MmRun c h s ∧ h.map Prod.fst = reattachHistory ∧ s.attached 1000 91 = true ∧
    Brew.issiRoutable c 1000 = true ∧ Brew.gssiRoutable c 91 = true ∧ ∃ hl l, Brew.LinkRun (fun _ => true) c 4 hl l ∧
      Brew.linkUpdates hl = toBrew (sent h) ∧ l.up = true ∧ l.whole = true ∧ l.cmds = [] ∧ .connected ∉ l.evs ∧
      ¬ (Brew.known (fun _ => true) l.heard).member 1000 91 := by
  obtain ⟨h, s, h1, h2, h3⟩ := replay_run (c := openCfg) reattachHistory .start (show replay _ (fun s out =>
    s.attached 1000 91 && decide (toBrew out = reattachUpdates)) _ _ _ = true by decide +kernel)
  simp only [Bool.and_eq_true, decide_eq_true_eq] at h3
  have hok : ∀ e ∈ linkHistory reattachUpdates 3, e.Ok := by
    intro e he
    simp only [linkHistory, reattachUpdates, List.replicate_succ, List.replicate_zero, List.map_cons, List.map_nil, List.cons_append, List.nil_append, List.mem_cons,
      List.not_mem_nil, or_false] at he
    rcases he with rfl | rfl | rfl | rfl | rfl | rfl | rfl | rfl | rfl <;> simp [Brew.LinkEv.Ok, Brew.updateOk]
  have hrun := Brew.linkRun_of_run (utf8 := fun _ => true) (cfg := openCfg) (latency := 4) .init hok rfl
  refine ⟨openCfg, h, s, h1, h2, h3.1, by decide +kernel, by decide +kernel, _, _, hrun, ?_, rfl, rfl, rfl, ?_, ?_⟩
  · rw [h3.2]; rfl
  · exact List.not_mem_nil
  · rw [(Brew.c60_subscribers hrun rfl rfl rfl List.not_mem_nil).2]
    intro hm
    exact hm.1.2 ⟨rfl, by simp⟩

/-- Two stations register, one with groups; both parts of C64 apply. -/
def plainHistory : List MmIn :=
  [reportMsg 1000 true [⟨some 4, none, some 91, none, none⟩, ⟨some 4, none, some 92, none, none⟩], demandMsg 2000 3 []]
def plainUpdates : List SubUpdate := [.register 1000, .affiliate 1000 [91, 92], .register 2000]

example : ∃ c h s hl l, MmRun c h s ∧ Brew.isActive c = true ∧ (∀ x ∈ h, NoReattach (entriesOf x.1.bits)) ∧
    Brew.LinkRun (fun _ => true) c 4 hl l ∧ Brew.linkUpdates hl = toBrew (sent h) ∧ l.up = true ∧ l.whole = true ∧ l.cmds = [] ∧
    .connected ∉ l.evs ∧ (Brew.known (fun _ => true) l.heard).member 1000 92 ∧ (Brew.known (fun _ => true) l.heard).here 2000 ∧
    ¬ (Brew.known (fun _ => true) l.heard).member 2000 92 := by
  obtain ⟨h, s, h1, h2, h3⟩ := replay_run (c := openCfg) plainHistory .start (show replay _ (fun s out =>
    s.attached 1000 92 && s.known 2000 && !s.attached 2000 92 && decide (toBrew out = plainUpdates)) _ _ _ = true by decide +kernel)
  simp only [Bool.and_eq_true, Bool.not_eq_true', decide_eq_true_eq] at h3
  have hok : ∀ e ∈ linkHistory plainUpdates 3, e.Ok := by
    intro e he
    simp only [linkHistory, plainUpdates, List.replicate_succ, List.replicate_zero, List.map_cons, List.map_nil, List.cons_append, List.nil_append, List.mem_cons,
      List.not_mem_nil, or_false] at he
    rcases he with rfl | rfl | rfl | rfl | rfl | rfl | rfl | rfl <;> simp [Brew.LinkEv.Ok, Brew.updateOk]
  have hrun := Brew.linkRun_of_run (utf8 := fun _ => true) (cfg := openCfg) (latency := 4) .init hok rfl
  have hu : Brew.linkUpdates (linkHistory plainUpdates 3) = toBrew (sent h) := by rw [h3.2]; rfl
  have hn : ∀ x ∈ h, NoReattach (entriesOf x.1.bits) := by
    intro x hx
    refine noReattach_of ?_
    have hm : x.1 ∈ plainHistory := by
      have := List.mem_map_of_mem (f := Prod.fst) hx
      rwa [h2] at this
    have : ∀ m ∈ plainHistory, (((entriesOf m.bits).filterMap GroupUplink.word).all (·.2) ||
      ((entriesOf m.bits).filterMap GroupUplink.word).all (!·.2)) = true := by decide +kernel
    exact this _ hm
  have ha : Brew.isActive openCfg = true := rfl
  have key := c64_groups_partial h1 ha hn hrun hu rfl rfl rfl List.not_mem_nil
  refine ⟨openCfg, h, s, _, _, h1, ha, hn, hrun, hu, rfl, rfl, rfl, List.not_mem_nil, ?_, ?_, ?_⟩
  · exact (key 1000 92).2 ⟨h3.1.1.1, by decide +kernel, by decide +kernel⟩
  · exact ((c64_network h1 ha hrun hu rfl rfl rfl List.not_mem_nil).1 2000).2 ⟨h3.1.1.2, by decide +kernel⟩
  · intro hm
    have := ((key 2000 92).1 hm).1
    rw [h3.1.2] at this
    cases this

end Verif.Mm
