import Verif.Mm.MmSteps
import Verif.Mm.PdusProps
import Verif.Core.PduGives
/-!
# Mobility management: what a message does, and when it aborts
-/
namespace Verif.Mm
open Verif.Bits Verif.Codec Verif.TypedFields Verif.Config Verif.Cmce

/-! ## The groups afterwards -/

theorem entries_effect {j : Nat} (xs : List GroupUplink) {a : Attaching} {gs : List Nat} (hc : a.mm.clients.get j = some gs) :
    (∀ i, i ≠ j → (xs.foldl (Attaching.entry j) a).mm.clients.get i = a.mm.clients.get i) ∧
    (xs.foldl (Attaching.entry j) a).mm.known j = true ∧
    (∀ g, (xs.foldl (Attaching.entry j) a).mm.attached j g = afterWords (a.mm.attached j g) (xs.filterMap GroupUplink.word) g) ∧
    (xs.foldl (Attaching.entry j) a).accepted = a.accepted ++ confirm xs := by
  induction xs generalizing a gs with
  | nil => exact ⟨fun _ _ => rfl, known_eq hc, fun _ => rfl, by simp [confirm]⟩
  | cons x xs ih =>
    rw [List.foldl_cons]
    cases hx : x.word with
    | none =>
      rw [entry_none (.inl hx)]
      obtain ⟨h1, h2, h3, h4⟩ := ih hc
      refine ⟨h1, h2, ?_, ?_⟩
      · intro g; rw [h3, List.filterMap_cons, hx]
      · rw [h4]; simp [confirm, hx]
    | some p =>
      obtain ⟨g, b⟩ := p
      have he := entry_some hx hc
      have hc' : (a.entry j x).mm.clients.get j = some (attachGroup gs g b).1 := by rw [he]; simp
      obtain ⟨h1, h2, h3, h4⟩ := ih hc'
      refine ⟨?_, h2, ?_, ?_⟩
      · intro i hi
        rw [h1 i hi, he]
        simp only [Assoc.get_insert]
        rw [if_neg (Ne.symm hi)]
      · intro k
        rw [h3, List.filterMap_cons, hx]
        simp only [afterWords]
        congr 1
        rw [he]
        simp only [Mm.attached, Mm.groups, Assoc.get_insert_self, Option.getD_some, mem_attachGroup, hc]
      · rw [h4, he]; simp [confirm, hx]

theorem attachDetach_known {c : Brew.Cfg} {s : Mm} {j : Nat} (xs : List GroupUplink) {gs : List Nat} (hc : s.clients.get j = some gs) :
    (∀ i, i ≠ j → (s.attachDetach c j xs).1.clients.get i = s.clients.get i) ∧
    (s.attachDetach c j xs).1.known j = true ∧
    (∀ g, (s.attachDetach c j xs).1.attached j g = afterWords (s.attached j g) (xs.filterMap GroupUplink.word) g) ∧
    (s.attachDetach c j xs).2.2 = confirm xs := by
  obtain ⟨h1, h2, h3, h4⟩ := entries_effect xs (a := ⟨s, [], [], [], []⟩) hc
  rw [List.nil_append] at h4
  exact ⟨h1, h2, h3, h4⟩

theorem attachDetach_unknown {c : Brew.Cfg} {s : Mm} {j : Nat} (xs : List GroupUplink) (hc : s.clients.get j = none) :
    s.attachDetach c j xs = (s, [], []) := by
  unfold Mm.attachDetach
  rw [entries_unknown xs hc]
  rfl

/-! ## Who is answered -/

theorem answers_append (a b : List MmOut) : answers (a ++ b) = answers a ++ answers b := by simp [answers]

theorem answers_emit (c : Brew.Cfg) (u : SubUpdate) : answers (emit c u) = [] := by
  unfold emit
  rw [answers_append]
  by_cases ha : Brew.isActive c = true
  · rw [if_pos ha]
    cases u with
    | register i => simp only; split <;> rfl
    | deregister i => simp only; split <;> rfl
    | affiliate i gs => simp only; split <;> rfl
    | deaffiliate i gs => simp only; split <;> rfl
  · rw [if_neg ha]; rfl

theorem answers_emitGroups (c : Brew.Cfg) (u : List Nat → SubUpdate) (gs : List Nat) : answers (emitGroups c u gs) = [] := by
  unfold emitGroups; split
  · rfl
  · exact answers_emit c _

theorem answers_addClient (c : Brew.Cfg) (s : Mm) (j : Nat) : answers (s.addClient c j).2 = [] := by
  show answers ([MmOut.telemetry (.registration j)] ++ emit c (.register j)) = []
  rw [answers_append, answers_emit]; rfl

theorem answers_itsiDetach (c : Brew.Cfg) (s : Mm) (j : Nat) : answers (s.itsiDetach c j).2 = [] := by
  unfold Mm.itsiDetach
  cases s.clients.get j with
  | none => rfl
  | some gs =>
    show answers ([MmOut.telemetry (.deregistration j)] ++ (emitGroups c (.deaffiliate j) gs ++ emit c (.deregister j))) = []
    rw [answers_append, answers_append, answers_emit, answers_emitGroups]; rfl

theorem answers_startOver (c : Brew.Cfg) (s : Mm) (j : Nat) : answers (s.startOver c j).2 = [] := by
  unfold Mm.startOver
  cases s.clients.get j with
  | none => exact answers_addClient c s j
  | some gs =>
    show answers ([MmOut.telemetry (.groupDetach j gs)] ++ emitGroups c (.deaffiliate j) gs) = []
    rw [answers_append, answers_emitGroups]; rfl

theorem events_entries {j : Nat} (xs : List GroupUplink) {a : Attaching} (h : answers a.events = []) :
    answers (xs.foldl (Attaching.entry j) a).events = [] := by
  induction xs generalizing a with
  | nil => exact h
  | cons x xs ih =>
    rw [List.foldl_cons]
    apply ih
    cases hc : a.mm.clients.get j with
    | none => rw [entry_none (.inr hc)]; exact h
    | some gs =>
      cases hx : x.word with
      | none => rw [entry_none (.inl hx)]; exact h
      | some p =>
        obtain ⟨g, b⟩ := p
        rw [entry_some hx hc]
        simp only [answers_append, h]
        cases b <;> rfl

theorem answers_attachDetach (c : Brew.Cfg) (s : Mm) (j : Nat) (xs : List GroupUplink) : answers (s.attachDetach c j xs).2.1 = [] := by
  unfold Mm.attachDetach
  simp only [answers_append, answers_emitGroups, List.append_nil]
  exact events_entries xs rfl

theorem answers_demandGroups (c : Brew.Cfg) (s : Mm) (j : Nat) (d : Option LocationDemand) : answers (s.demandGroups c j d).2.1 = [] := by
  match d with
  | none => rfl
  | some ⟨m, none⟩ => rfl
  | some ⟨m, some xs⟩ => exact answers_attachDetach c s j xs

/-! ## What the backhaul is told -/

/-- The backhaul is told the routable part of what call control is told, in the same order. -/
def Mirrors (c : Brew.Cfg) (out : List MmOut) : Prop :=
  toBrew out = if Brew.isActive c then (toCmce out).flatMap (brewPart c) else []

theorem mirrors_append {c : Brew.Cfg} {a b : List MmOut} (ha : Mirrors c a) (hb : Mirrors c b) : Mirrors c (a ++ b) := by
  unfold Mirrors at *
  have e1 : toBrew (a ++ b) = toBrew a ++ toBrew b := by simp [toBrew]
  have e2 : toCmce (a ++ b) = toCmce a ++ toCmce b := by simp [toCmce]
  rw [e1, e2, ha, hb]
  split <;> simp

theorem mirrors_nil {c : Brew.Cfg} : Mirrors c [] := by simp [Mirrors, toBrew, toCmce]
theorem mirrors_tel {c : Brew.Cfg} (e : TelEvent) : Mirrors c [.telemetry e] := by simp [Mirrors, toBrew, toCmce]
theorem mirrors_answer {c : Brew.Cfg} (h i : Nat) (b : List Bool) : Mirrors c [.answer h i b] := by simp [Mirrors, toBrew, toCmce]

theorem mirrors_emit (c : Brew.Cfg) (u : SubUpdate) : Mirrors c (emit c u) := by
  unfold Mirrors emit
  by_cases ha : Brew.isActive c = true
  · simp only [ha, if_true]
    cases u with
    | register i => simp only; split <;> simp [toBrew, toCmce, brewPart, *]
    | deregister i => simp only; split <;> simp [toBrew, toCmce, brewPart, *]
    | affiliate i gs =>
      simp only [List.isEmpty_iff]
      by_cases h : gs.filter (Brew.gssiRoutable c) = []
      · simp only [if_pos h, toBrew, toCmce, List.nil_append, List.filterMap_cons, List.filterMap_nil, List.flatMap_cons, List.flatMap_nil, brewPart]
      · simp only [if_neg h, toBrew, toCmce, List.cons_append, List.nil_append, List.filterMap_cons, List.filterMap_nil, List.flatMap_cons, List.flatMap_nil, brewPart]
    | deaffiliate i gs =>
      simp only [List.isEmpty_iff]
      by_cases h : gs.filter (Brew.gssiRoutable c) = []
      · simp only [if_pos h, toBrew, toCmce, List.nil_append, List.filterMap_cons, List.filterMap_nil, List.flatMap_cons, List.flatMap_nil, brewPart]
      · simp only [if_neg h, toBrew, toCmce, List.cons_append, List.nil_append, List.filterMap_cons, List.filterMap_nil, List.flatMap_cons, List.flatMap_nil, brewPart]
  · simp [ha, toBrew]

theorem mirrors_emitGroups (c : Brew.Cfg) (u : List Nat → SubUpdate) (gs : List Nat) : Mirrors c (emitGroups c u gs) := by
  unfold emitGroups; split
  · exact mirrors_nil
  · exact mirrors_emit c _

theorem mirrors_addClient (c : Brew.Cfg) (s : Mm) (j : Nat) : Mirrors c (s.addClient c j).2 :=
  mirrors_append (a := [MmOut.telemetry (.registration j)]) (mirrors_tel _) (mirrors_emit c (.register j))

theorem mirrors_itsiDetach (c : Brew.Cfg) (s : Mm) (j : Nat) : Mirrors c (s.itsiDetach c j).2 := by
  unfold Mm.itsiDetach
  cases s.clients.get j with
  | none => exact mirrors_nil
  | some gs =>
    exact mirrors_append (a := [MmOut.telemetry (.deregistration j)]) (mirrors_tel _)
      (mirrors_append (mirrors_emitGroups c _ _) (mirrors_emit c _))

theorem mirrors_startOver (c : Brew.Cfg) (s : Mm) (j : Nat) : Mirrors c (s.startOver c j).2 := by
  unfold Mm.startOver
  cases s.clients.get j with
  | none => exact mirrors_addClient c s j
  | some gs => exact mirrors_append (a := [MmOut.telemetry (.groupDetach j gs)]) (mirrors_tel _) (mirrors_emitGroups c _ _)

theorem mirrors_entries {c : Brew.Cfg} {j : Nat} (xs : List GroupUplink) {a : Attaching} (h : Mirrors c a.events) :
    Mirrors c (xs.foldl (Attaching.entry j) a).events := by
  induction xs generalizing a with
  | nil => exact h
  | cons x xs ih =>
    rw [List.foldl_cons]
    apply ih
    cases hc : a.mm.clients.get j with
    | none => rw [entry_none (.inr hc)]; exact h
    | some gs =>
      cases hx : x.word with
      | none => rw [entry_none (.inl hx)]; exact h
      | some p =>
        obtain ⟨g, b⟩ := p
        rw [entry_some hx hc]
        refine mirrors_append h ?_
        cases b
        · exact mirrors_nil
        · exact mirrors_tel _

theorem mirrors_attachDetach (c : Brew.Cfg) (s : Mm) (j : Nat) (xs : List GroupUplink) : Mirrors c (s.attachDetach c j xs).2.1 := by
  unfold Mm.attachDetach
  exact mirrors_append (mirrors_append (mirrors_entries xs mirrors_nil) (mirrors_emitGroups c _ _)) (mirrors_emitGroups c _ _)

theorem mirrors_demandGroups (c : Brew.Cfg) (s : Mm) (j : Nat) (d : Option LocationDemand) : Mirrors c (s.demandGroups c j d).2.1 := by
  match d with
  | none => exact mirrors_nil
  | some ⟨m, none⟩ => exact mirrors_nil
  | some ⟨m, some xs⟩ => exact mirrors_attachDetach c s j xs

theorem onParsed_out {α β : Type} {s : β} {o : Out (α × List Bool)} {f : α → Res (β × List MmOut)} {P : List MmOut → Prop}
    (hn : P []) (hf : ∀ x y, f x = .ok y → P y.2) {r : β × List MmOut} (h : onParsed s o f = .ok r) : P r.2 := by
  unfold onParsed at h
  split at h
  · exact hf _ _ h
  · cases h; exact hn
  · cases h

theorem mirrors_rx {c : Brew.Cfg} {s s' : Mm} {handle issi : Nat} {bits : List Bool} {out : List MmOut}
    (h : s.rx c handle issi bits = .ok (s', out)) : Mirrors c out := by
  unfold Mm.rx at h
  split at h
  · cases h; exact mirrors_nil
  simp only at h
  split at h
  · refine onParsed_out (P := Mirrors c) mirrors_nil (fun x y hy => ?_) h
    cases hy; exact mirrors_itsiDetach c s issi
  split at h
  · refine onParsed_out (P := Mirrors c) mirrors_nil (fun x y hy => ?_) h
    unfold Mm.locationUpdate at hy
    split at hy
    · simp only [Res.bind_eq_ok] at hy
      obtain ⟨sdu, _, cmd, hcmd, hy⟩ := hy
      cases hy
      refine mirrors_append (mirrors_append (mirrors_append ?_ (mirrors_demandGroups c _ _ _)) (mirrors_answer _ _ _)) ?_
      · split
        · exact mirrors_addClient c s issi
        · exact mirrors_nil
      · unfold sendCommand at hcmd
        split at hcmd
        · simp only [Res.bind_eq_ok] at hcmd
          obtain ⟨b, _, hb⟩ := hcmd
          cases hb; exact mirrors_answer _ _ _
        · cases hcmd; exact mirrors_nil
    · cases hy; exact mirrors_nil
  split at h
  · refine onParsed_out (P := Mirrors c) mirrors_nil (fun x y hy => ?_) h
    simp only [Mm.status, Res.bind_eq_ok] at hy
    obtain ⟨sdu, _, hy⟩ := hy
    cases hy; exact mirrors_answer _ _ _
  split at h
  · refine onParsed_out (P := Mirrors c) mirrors_nil (fun x y hy => ?_) h
    unfold Mm.groupReport at hy
    split at hy
    · cases hy; exact mirrors_nil
    · simp only [Res.bind_eq_ok] at hy
      obtain ⟨sdu, _, hy⟩ := hy
      cases hy
      refine mirrors_append (mirrors_append ?_ (mirrors_attachDetach c _ _ _)) (mirrors_answer _ _ _)
      split
      · exact mirrors_startOver c s issi
      · exact mirrors_nil
  · cases h; exact mirrors_nil

/-! ## What is read -/

/-- The group number fits 24 bits, class of usage three, detachment two. -/
def GroupUplink.InRange (x : GroupUplink) : Prop := NumOk 24 x.gssi ∧ NumOk 3 x.classOfUsage ∧ NumOk 2 x.detachment

theorem gives_groupUplink : GroupUplink.dec.Gives GroupUplink.InRange := by
  unfold GroupUplink.dec
  exact Rd.gives_bind (Rd.gives_any _) fun _ _ => Rd.gives_bind (gives_rdIf _ (Rd.gives_bits 3)) fun _ h1 =>
    Rd.gives_bind (gives_rdIf _ (Rd.gives_bits 2)) fun _ h2 => Rd.gives_bind (Rd.gives_any _) fun _ _ =>
    Rd.gives_bind (gives_rdIf _ (Rd.gives_bits 24)) fun _ h3 => Rd.gives_bind (Rd.gives_any _) fun _ _ =>
    Rd.gives_bind (Rd.gives_any _) fun _ _ => Rd.gives_pure ⟨h3, h1, h2⟩

/-- Fewer than 64 entries, each in range. -/
def EntriesOk (xs : List GroupUplink) : Prop := xs.length < 64 ∧ ∀ x ∈ xs, x.InRange

theorem gives_locationDemand : LocationDemand.dec.Gives fun d => ∀ xs, d.groups = some xs → EntriesOk xs := by
  unfold LocationDemand.dec
  refine Rd.gives_bind (Rd.gives_any _) fun _ _ => Rd.gives_ite (fun _ => Rd.gives_fail) fun _ => ?_
  refine Rd.gives_bind (Rd.gives_any _) fun _ _ => Rd.gives_bind (gives_optional LocationDemand.fields) fun v hv => Rd.gives_pure ?_
  obtain ⟨o, ⟨a, b, h⟩, _⟩ := hv
  exact gives_type4 o 8 gives_groupUplink a v.1 b h

theorem gives_attachDetach : UAttachDetach.dec.Gives fun x => ∀ xs, x.groups = some xs → EntriesOk xs := by
  unfold UAttachDetach.dec
  refine Rd.gives_bind (Rd.gives_any _) fun _ _ => Rd.gives_bind (Rd.gives_any _) fun _ _ => Rd.gives_bind (Rd.gives_any _) fun _ _ => ?_
  refine Rd.gives_bind (gives_optional UAttachDetach.fields) fun v hv => Rd.gives_pure ?_
  obtain ⟨o, _, ⟨a, b, h⟩, _⟩ := hv
  exact gives_type4 o 8 gives_groupUplink a v.2.1 b h

theorem gives_locationUpdate : ULocationUpdateDemand.dec.Gives fun x => x.updateType < 8 ∧ EntriesOk (demandEntries x.groupDemand) := by
  unfold ULocationUpdateDemand.dec
  refine Rd.gives_bind (Rd.gives_any _) fun _ _ => Rd.gives_bind (Rd.gives_bits 3) fun t ht => Rd.gives_bind (Rd.gives_any _) fun _ _ => ?_
  refine Rd.gives_bind (Rd.gives_any _) fun _ _ => Rd.gives_bind (Rd.gives_any _) fun _ _ => ?_
  refine Rd.gives_bind (gives_optional (ULocationUpdateDemand.fields2 ++ ULocationUpdateDemand.fields34)) fun v hv => Rd.gives_pure ⟨ht, ?_⟩
  obtain ⟨o, _, _, _, _, _, ⟨a, b, h⟩, _⟩ := hv
  have := gives_type3 o 3 gives_locationDemand a v.2.2.2.2.2.1 b h
  show EntriesOk (demandEntries v.2.2.2.2.2.1)
  revert this
  generalize v.2.2.2.2.2.1 = d
  intro hd
  match d, hd with
  | none, _ => exact ⟨by simp [demandEntries], by simp [demandEntries]⟩
  | some ⟨m, none⟩, _ => exact ⟨by simp [demandEntries], by simp [demandEntries]⟩
  | some ⟨m, some xs⟩, hd => exact hd ⟨m, some xs⟩ rfl xs rfl

theorem gives_mmStatus : UMmStatus.dec.Gives fun x => x.status < 64 := by
  unfold UMmStatus.dec
  refine Rd.gives_bind (Rd.gives_any _) fun _ _ => Rd.gives_bind (Rd.gives_bits 6) fun t ht => Rd.gives_ite (fun _ => ?_) fun _ => Rd.gives_fail
  refine Rd.gives_bind (Rd.gives_any _) fun _ _ => Rd.gives_ite (fun _ => ?_) fun _ => Rd.gives_pure ht
  exact Rd.gives_bind (Rd.gives_any _) fun _ _ => Rd.gives_pure ht

/-! ## The answers can be written -/

theorem confirm_ok {xs : List GroupUplink} (h : EntriesOk xs) :
    DownlinkList (confirm xs) ∧ 26 + ((confirm xs).map GroupDownlink.size).sum < 2048 := by
  have hlen : (confirm xs).length ≤ xs.length := List.length_filterMap_le _ _
  have hok : ∀ y ∈ confirm xs, y.Ok ∧ y.size ≤ 32 := by
    intro y hy
    simp only [confirm, List.mem_filterMap, Option.map_eq_some_iff] at hy
    obtain ⟨x, hx, ⟨g, b⟩, hw, rfl⟩ := hy
    obtain ⟨r1, r2, r3⟩ := h.2 x hx
    obtain ⟨cl, det, gssi, ext, vgssi⟩ := x
    cases gssi with
    | none => simp [GroupUplink.word] at hw
    | some g' =>
      cases vgssi with
      | some _ => simp [GroupUplink.word] at hw
      | none =>
        cases ext with
        | some _ => simp [GroupUplink.word] at hw
        | none =>
          simp only [GroupUplink.word, Option.some.injEq, Prod.mk.injEq] at hw
          obtain ⟨rfl, _⟩ := hw
          have hg := r1 _ rfl
          cases det with
          | some d =>
            have hd := r3 d rfl
            refine ⟨⟨.inr ⟨d, hd, rfl, rfl⟩, .inl ⟨g', hg, rfl, ?_, ?_, ?_⟩⟩, ?_⟩ <;> simp [acceptEntry, GroupDownlink.size]
          | none =>
            refine ⟨⟨.inl ⟨_, rfl, ⟨by simp, ?_⟩, rfl⟩, .inl ⟨g', hg, rfl, ?_, ?_, ?_⟩⟩, ?_⟩
            · cases cl with
              | none => simp
              | some cu => exact r2 cu rfl
            all_goals simp [acceptEntry, GroupDownlink.size]
  have hsum : ∀ l : List GroupDownlink, (∀ y ∈ l, y.size ≤ 32) → (l.map GroupDownlink.size).sum ≤ 32 * l.length := by
    intro l
    induction l with
    | nil => simp
    | cons y l ih =>
      intro hl
      have h1 := hl y (by simp)
      have h2 := ih fun z hz => hl z (by simp [hz])
      simp only [List.map_cons, List.sum_cons, List.length_cons]
      omega
  have h1 := hsum (confirm xs) fun y hy => (hok y hy).2
  have h2 := h.1
  refine ⟨⟨by omega, fun y hy => (hok y hy).1, by omega⟩, by omega⟩

theorem unwrap_roundTrip {α : Type} {enc : α → Out (List Bool)} {dec : Rd α} {x : α} (h : RoundTrip enc dec x) :
    ∃ sdu, unwrapOut (enc x) = .ok sdu ∧ enc x = .ok sdu ∧ dec.run sdu = .ok (x, []) := by
  obtain ⟨bs, h1, h2⟩ := h
  refine ⟨bs, by rw [h1]; rfl, h1, ?_⟩
  have := h2 []
  rwa [List.append_nil] at this

theorem accept_ok {t j : Nat} {d : Option LocationAccept} (ht : t < 8) (hj : j < 2 ^ 24) (hd : ∀ a, d = some a → a.Ok) :
    (updateAccept t j d).Ok := by
  constructor <;> simp [updateAccept, NumOk, RawOk, ht, hj]
  · exact hd

/-! ## Which message it is -/

theorem type_of {α : Type} {n t : Nat} {f : Unit → Rd α} {bs r : List Bool} {x : α}
    (h : (expectType n t >>= f).run bs = .ok (x, r)) : n ≤ bs.length ∧ ofBits (bs.take n) = t := by
  simp only [Rd.run_bind, expectType, Out.bind_eq_ok] at h
  obtain ⟨⟨_, r1⟩, ⟨⟨v, r2⟩, h1, h2⟩, _⟩ := h
  obtain ⟨hv, rfl, _⟩ := run_bits_ok h1
  simp only [Rd.run_ite] at h2
  have hvt : v = t := by
    revert h2
    by_cases e : v = t
    · exact fun _ => e
    · simp [e]
  refine ⟨by simp, ?_⟩
  rw [List.take_append_of_le_length (by simp), List.take_of_length_le (by simp), ofBits_toBits hv, hvt]

end Verif.Mm
