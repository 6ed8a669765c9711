import Verif.Brew.Worker
import Verif.Brew.ProtocolProps
import Verif.Brew.RoutableProps
/-!
# C59: what comes from the network reaches the base station as it was meant

Histories of the worker thread. The specification speaks of messages read from the bytes received (C58 says which bytes are
which message) and of the order in which they came.
-/
namespace Verif.Brew
open Codec (Out)

/-! ## Histories -/

/-- What happens in the worker thread. -/
inductive WkEv where
  | expire (now : Nat)
  | receive (now : Nat) (data : List Nat)
  | command (c : BrewCmd) (clock : Clock) (ok : Nat → Bool)

/-- One step: the new state, what the entity is told and what the transport took. -/
def Worker.step (utf8 : List Nat → Bool) (s : Worker) : WkEv → Res (Worker × List BrewEvent × List (List Nat))
  | .expire now => .ok (s.expire now, [], [])
  | .receive now data => do
    let r ← s.receive utf8 now data
    .ok (r.1, r.2, [])
  | .command c clock ok => .ok ((s.command clock ok c).1, [], (s.command clock ok c).2)

/-- A history: each event with what the entity was told. -/
abbrev WkHist := List (WkEv × List BrewEvent)

/-- The worker after a history. The order in which its tables are iterated may change at any time. -/
inductive WkRun (utf8 : List Nat → Bool) (cfg : Cfg) : WkHist → Worker → Prop where
  | init : WkRun utf8 cfg [] (.init cfg)
  | step {h : WkHist} {s s' : Worker} {e : WkEv} {told : List BrewEvent} {sent : List (List Nat)} :
      WkRun utf8 cfg h s → s.step utf8 e = .ok (s', told, sent) → WkRun utf8 cfg (h ++ [(e, told)]) s'
  | reorder {h : WkHist} {s : Worker} {g : Assoc Nat (List Nat)} {p : Assoc Nat PendingSds} :
      WkRun utf8 cfg h s → g.Perm s.groups → p.Perm s.pending → WkRun utf8 cfg h { s with groups := g, pending := p }

/-! ## Specification -/

/-- The message an event brings. -/
def WkEv.brings (utf8 : List Nat → Bool) : WkEv → Option BrewMsg
  | .receive _ data => match parseBrew utf8 data with
    | .ok m => some m
    | _ => none
  | _ => none

/-- An entry of a history after which a header of short data with this UUID, received at `t`, no longer counts: a newer
header, the delivery of the message, or the clean-up more than thirty seconds later. -/
def Supersedes (utf8 : List Nat → Bool) (u t : Nat) (x : WkEv × List BrewEvent) : Prop :=
  (∃ s d, x.1.brings utf8 = some (.call 11 u (.shortTransfer s d))) ∨ (∃ s d data bits, .sds u s d data bits ∈ x.2) ∨
    ∃ now, x.1 = .expire now ∧ now > t + 30000

/-- The header (SHORT_TRANSFER) of a message from `source` to `dest` was received at time `t` and still counts. -/
def Announced (utf8 : List Nat → Bool) (h : WkHist) (u source dest t : Nat) : Prop :=
  ∃ (pre : WkHist) (e : WkEv) (told : List BrewEvent) (post : WkHist) (data : List Nat),
    h = pre ++ (e, told) :: post ∧ e = .receive t data ∧ e.brings utf8 = some (.call 11 u (.shortTransfer source dest)) ∧
    ∀ x ∈ post, ¬ Supersedes utf8 u t x

/-! ## Lemmas -/

theorem announced_snoc {utf8 : List Nat → Bool} {h : WkHist} {x : WkEv × List BrewEvent} {u source dest t : Nat} :
    Announced utf8 (h ++ [x]) u source dest t ↔
      ((∃ data, x.1 = .receive t data) ∧ x.1.brings utf8 = some (.call 11 u (.shortTransfer source dest))) ∨
      (Announced utf8 h u source dest t ∧ ¬ Supersedes utf8 u t x) := by
  constructor
  · rintro ⟨pre, e, told, post, data, heq, he, hb, hp⟩
    rcases List.eq_nil_or_concat post with rfl | ⟨post', y, rfl⟩
    · left
      have h1 := List.append_inj' heq rfl
      have h2 : x = (e, told) := by simpa using h1.2
      subst h2
      exact ⟨⟨data, he⟩, hb⟩
    · right
      rw [List.concat_eq_append, ← List.cons_append, ← List.append_assoc] at heq
      obtain ⟨h1, h2⟩ := List.append_inj' heq rfl
      have h2 : x = y := by simpa using h2
      subst h2
      rw [List.concat_eq_append] at hp
      exact ⟨⟨pre, e, told, post', data, h1, he, hb, fun z hz => hp z (by simp [hz])⟩, hp x (by simp)⟩
  · rintro (⟨⟨data, he⟩, hb⟩ | ⟨⟨pre, e, told, post, data, rfl, he, hb, hp⟩, hx⟩)
    · exact ⟨h, x.1, x.2, [], data, rfl, he, hb, by simp⟩
    · refine ⟨pre, e, told, post ++ [x], data, by simp, he, hb, ?_⟩
      intro z hz
      rcases List.mem_append.1 hz with hz | hz
      · exact hp z hz
      · have : z = x := by simpa using hz
        exact this ▸ hx

theorem assoc_get_filter {κ ν : Type} [DecidableEq κ] {m : Assoc κ ν} (hm : m.Ok) (p : κ × ν → Bool) (k : κ) :
    Assoc.get (m.filter p) k = (m.get k).filter (fun v => p (k, v)) := by
  induction m with
  | nil => rfl
  | cons e r ih =>
    obtain ⟨a, v⟩ := e
    simp only [Assoc.Ok, List.map_cons, List.nodup_cons] at hm
    have ih := ih hm.2
    by_cases hk : a = k
    · subst hk
      have hnone : ∀ r : Assoc κ ν, a ∉ r.map Prod.fst → Assoc.get r a = none := by
        intro r hr
        induction r with
        | nil => rfl
        | cons e r ih2 =>
          obtain ⟨b, w⟩ := e
          simp only [List.map_cons, List.mem_cons, not_or] at hr
          rw [Assoc.get_cons, if_neg (Ne.symm hr.1), ih2 hr.2]
      rw [Assoc.get_cons, if_pos rfl, List.filter_cons]
      by_cases hp : p (a, v) = true
      · rw [if_pos hp, Assoc.get_cons, if_pos rfl]; simp [Option.filter, hp]
      · rw [if_neg hp, hnone _ fun hmem => hm.1 (List.Sublist.mem hmem (List.Sublist.map _ List.filter_sublist))]
        simp [Option.filter, hp]
    · rw [Assoc.get_cons, if_neg hk, List.filter_cons]
      split
      · rw [Assoc.get_cons, if_neg hk, ih]
      · exact ih

theorem assoc_get_perm {κ ν : Type} [DecidableEq κ] {a b : Assoc κ ν} (hp : a.Perm b) (hb : b.Ok) (k : κ) : a.get k = b.get k := by
  have ha : a.Ok := (hp.map Prod.fst).nodup_iff.2 hb
  cases h : b.get k with
  | some v => exact Assoc.get_of_mem ha (hp.mem_iff.2 (Assoc.mem_of_get h))
  | none =>
    cases h2 : a.get k with
    | none => rfl
    | some v => rw [Assoc.get_of_mem hb (hp.mem_iff.1 (Assoc.mem_of_get h2))] at h; cases h

theorem expire_get {s : Worker} (hs : s.pending.Ok) (now u : Nat) (p : PendingSds) :
    (s.expire now).pending.get u = some p ↔ s.pending.get u = some p ∧ ¬ now > p.since + 30000 := by
  rw [Worker.expire, assoc_get_filter hs, Option.filter_eq_some_iff]
  simp only [decide_eq_true_eq]
  constructor <;> rintro ⟨h1, h2⟩ <;> exact ⟨h1, by omega⟩

/-- What one received message does to the headers waiting and what the entity is told. -/
theorem receive_cases {utf8 : List Nat → Bool} {s s' : Worker} {now : Nat} {data : List Nat} {told : List BrewEvent}
    (h : s.receive utf8 now data = .ok (s', told)) :
    s'.cfg = s.cfg ∧ s'.groups = s.groups ∧
    ((parseBrew utf8 data = .err ∧ s' = s ∧ told = []) ∨
     ∃ m, parseBrew utf8 data = .ok m ∧
      ((∃ u a b, m = .call 11 u (.shortTransfer a b) ∧ s'.pending = s.pending.insert u ⟨a, b, now⟩ ∧ told = []) ∨
       ((∀ u a b, m ≠ .call 11 u (.shortTransfer a b)) ∧ s' = s ∧ ∀ u a b d n, .sds u a b d n ∉ told) ∨
       (∃ u bits d p, m = .frame 1 u bits d ∧ featureSdsEnabled s.cfg = true ∧ bits ≤ 2047 ∧ s.pending.get u = some p ∧
        s'.pending = s.pending.erase u ∧ told = [.sds u p.source p.dest d bits]))) := by
  unfold Worker.receive at h
  cases hp : parseBrew utf8 data with
  | panic => rw [hp] at h; cases h
  | err => rw [hp] at h; cases h; exact ⟨rfl, rfl, .inl ⟨rfl, rfl, rfl⟩⟩
  | ok m =>
    rw [hp] at h
    cases m with
    | subscriber t n a b gs =>
      cases h
      exact ⟨rfl, rfl, .inr ⟨_, rfl, .inr (.inl ⟨by simp, rfl, by simp⟩)⟩⟩
    | error t d => cases h; exact ⟨rfl, rfl, .inr ⟨_, rfl, .inr (.inl ⟨by simp, rfl, by simp⟩)⟩⟩
    | service t j => cases h; exact ⟨rfl, rfl, .inr ⟨_, rfl, .inr (.inl ⟨by simp, rfl, by simp⟩)⟩⟩
    | call st u p =>
      simp only [Res.ok.injEq] at h
      unfold Worker.handleCall at h
      by_cases h2 : st = 2
      · subst h2
        rw [if_pos rfl] at h
        cases p with
        | groupTx a b c d e =>
          simp only at h
          split at h <;> cases h <;> exact ⟨rfl, rfl, .inr ⟨_, rfl, .inr (.inl ⟨by simp, rfl, by simp⟩)⟩⟩
        | _ => cases h; exact ⟨rfl, rfl, .inr ⟨_, rfl, .inr (.inl ⟨by simp, rfl, by simp⟩)⟩⟩
      · rw [if_neg h2] at h
        by_cases h3 : st = 3
        · subst h3
          rw [if_pos rfl] at h; cases h
          exact ⟨rfl, rfl, .inr ⟨_, rfl, .inr (.inl ⟨by simp, rfl, by simp⟩)⟩⟩
        · rw [if_neg h3] at h
          by_cases h10 : st = 10
          · subst h10
            rw [if_pos rfl] at h; cases h
            exact ⟨rfl, rfl, .inr ⟨_, rfl, .inr (.inl ⟨by simp, rfl, by simp⟩)⟩⟩
          · rw [if_neg h10] at h
            by_cases h11 : st = 11
            · subst h11
              rw [if_pos rfl] at h
              cases p with
              | shortTransfer a b => cases h; exact ⟨rfl, rfl, .inr ⟨_, rfl, .inl ⟨u, a, b, rfl, rfl, rfl⟩⟩⟩
              | _ => cases h; exact ⟨rfl, rfl, .inr ⟨_, rfl, .inr (.inl ⟨by simp, rfl, by simp⟩)⟩⟩
            · rw [if_neg h11] at h; cases h
              exact ⟨rfl, rfl, .inr ⟨_, rfl, .inr (.inl ⟨by simp [h11], rfl, by simp⟩)⟩⟩
    | frame t u bits d =>
      simp only [Res.ok.injEq] at h
      unfold Worker.handleFrame at h
      by_cases h0 : t = 0
      · rw [if_pos h0] at h; cases h
        exact ⟨rfl, rfl, .inr ⟨_, rfl, .inr (.inl ⟨by simp, rfl, by simp⟩)⟩⟩
      · rw [if_neg h0] at h
        by_cases h1 : t = 1
        · subst h1
          rw [if_pos rfl] at h
          by_cases hf : featureSdsEnabled s.cfg = true
          · rw [if_pos hf] at h
            by_cases hb : bits > 2047
            · rw [if_pos hb] at h; cases h
              exact ⟨rfl, rfl, .inr ⟨_, rfl, .inr (.inl ⟨by simp, rfl, by simp⟩)⟩⟩
            · rw [if_neg hb] at h
              cases hg : s.pending.get u with
              | none =>
                simp only [hg] at h; cases h
                exact ⟨rfl, rfl, .inr ⟨_, rfl, .inr (.inl ⟨by simp, rfl, by simp⟩)⟩⟩
              | some p =>
                simp only [hg] at h; cases h
                exact ⟨rfl, rfl, .inr ⟨_, rfl, .inr (.inr ⟨u, bits, d, p, rfl, hf, by omega, hg, rfl, rfl⟩)⟩⟩
          · rw [if_neg hf] at h; cases h
            exact ⟨rfl, rfl, .inr ⟨_, rfl, .inr (.inl ⟨by simp, rfl, by simp⟩)⟩⟩
        · rw [if_neg h1] at h
          split at h <;> cases h <;> exact ⟨rfl, rfl, .inr ⟨_, rfl, .inr (.inl ⟨by simp, rfl, by simp⟩)⟩⟩

theorem command_pending (s : Worker) (now : Clock) (ok : Nat → Bool) (c : BrewCmd) :
    (s.command now ok c).1.pending = s.pending ∧ (s.command now ok c).1.cfg = s.cfg := by
  cases c with
  | sds u a b d n => simp only [Worker.command]; split <;> exact ⟨rfl, rfl⟩
  | sdsReport u st => simp only [Worker.command]; split <;> exact ⟨rfl, rfl⟩
  | _ => exact ⟨rfl, rfl⟩

theorem wk_step_cases {utf8 : List Nat → Bool} {s s' : Worker} {e : WkEv} {told : List BrewEvent} {sent : List (List Nat)}
    (h : s.step utf8 e = .ok (s', told, sent)) :
    (∃ now, e = .expire now ∧ s' = s.expire now ∧ told = []) ∨
    (∃ now data, e = .receive now data ∧ s.receive utf8 now data = .ok (s', told)) ∨
    (∃ c clock ok, e = .command c clock ok ∧ s'.pending = s.pending ∧ s'.cfg = s.cfg ∧ told = []) := by
  cases e with
  | expire now => cases h; exact .inl ⟨now, rfl, rfl, rfl⟩
  | receive now data =>
    right; left
    unfold Worker.step at h
    rw [Res.bind_eq_ok] at h
    obtain ⟨r, hr, h⟩ := h
    cases h
    exact ⟨now, data, rfl, hr⟩
  | command c clock ok =>
    right; right
    cases h
    exact ⟨c, clock, ok, rfl, (command_pending s clock ok c).1, (command_pending s clock ok c).2, rfl⟩

/-- The table of headers is what the history announces. -/
theorem wkRun_pending {utf8 : List Nat → Bool} {cfg : Cfg} {h : WkHist} {s : Worker} (hr : WkRun utf8 cfg h s) :
    s.cfg = cfg ∧ s.pending.Ok ∧
    ∀ u source dest t, s.pending.get u = some ⟨source, dest, t⟩ ↔ Announced utf8 h u source dest t := by
  induction hr with
  | init =>
    refine ⟨rfl, Assoc.ok_nil, ?_⟩
    intro u source dest t
    constructor
    · intro h; simp [Worker.init] at h
    · rintro ⟨pre, e, told, post, data, heq, -⟩; simp at heq
  | reorder hr hg hp ih =>
    obtain ⟨hc, hok, hi⟩ := ih
    refine ⟨hc, (hp.map Prod.fst).nodup_iff.2 hok, ?_⟩
    intro u source dest t
    rw [← hi]
    simp only [assoc_get_perm hp hok]
  | @step h s s' e told sent hr hs ih =>
    obtain ⟨hc, hok, hi⟩ := ih
    rcases wk_step_cases hs with ⟨now, rfl, rfl, rfl⟩ | ⟨now, data, rfl, hrec⟩ | ⟨c, clock, ok, rfl, hp, hcfg, rfl⟩
    · refine ⟨hc, ?_, ?_⟩
      · exact hok.sublist (List.Sublist.map _ List.filter_sublist)
      · intro u source dest t
        rw [expire_get hok, hi, announced_snoc]
        simp only [Supersedes, WkEv.brings]
        constructor
        · rintro ⟨h1, h2⟩
          refine .inr ⟨h1, ?_⟩
          rintro (⟨_, _, h⟩ | ⟨_, _, _, _, h⟩ | ⟨n, h, h3⟩)
          · cases h
          · simp at h
          · cases h; exact h2 h3
        · rintro (⟨⟨_, h⟩, _⟩ | ⟨h1, h2⟩)
          · cases h
          · exact ⟨h1, fun h3 => h2 (.inr (.inr ⟨now, rfl, h3⟩))⟩
    · obtain ⟨hcfg, -, hcase⟩ := receive_cases hrec
      refine ⟨hcfg.trans hc, ?_, ?_⟩
      · rcases hcase with ⟨-, rfl, -⟩ | ⟨m, -, ⟨u, a, b, -, hp, -⟩ | ⟨-, rfl, -⟩ | ⟨u, bits, d, p, -, -, -, -, hp, -⟩⟩
        · exact hok
        · rw [hp]; exact Assoc.ok_insert hok _ _
        · exact hok
        · rw [hp]; exact Assoc.ok_erase hok _
      · intro u source dest t
        rw [announced_snoc]
        rcases hcase with ⟨hm, rfl, rfl⟩ | ⟨m, hm, hcase⟩
        · have hb : (WkEv.receive now data).brings utf8 = none := by simp [WkEv.brings, hm]
          rw [hi]
          constructor
          · intro h1
            refine .inr ⟨h1, ?_⟩
            rintro (⟨_, _, h⟩ | ⟨_, _, _, _, h⟩ | ⟨n, h, h3⟩)
            · rw [hb] at h; cases h
            · simp at h
            · cases h
          · rintro (⟨_, h⟩ | ⟨h1, -⟩)
            · rw [hb] at h; cases h
            · exact h1
        · have hb : (WkEv.receive now data).brings utf8 = some m := by simp [WkEv.brings, hm]
          rcases hcase with ⟨u', a, b, rfl, hp, rfl⟩ | ⟨hns, rfl, hnt⟩ | ⟨u', bits, d, p, rfl, -, -, hg, hp, rfl⟩
          · rw [hp, Assoc.get_insert]
            by_cases hu : u' = u
            · subst hu
              rw [if_pos rfl]
              constructor
              · intro h1
                simp only [Option.some.injEq, PendingSds.mk.injEq] at h1
                obtain ⟨rfl, rfl, rfl⟩ := h1
                exact .inl ⟨⟨data, rfl⟩, hb⟩
              · rintro (⟨⟨d', h1⟩, h2⟩ | ⟨-, h2⟩)
                · cases h1
                  rw [hb] at h2; cases h2; rfl
                · exact absurd (.inl ⟨a, b, hb⟩) h2
            · rw [if_neg hu, hi]
              constructor
              · intro h1
                refine .inr ⟨h1, ?_⟩
                rintro (⟨_, _, h⟩ | ⟨_, _, _, _, h⟩ | ⟨n, h, h3⟩)
                · rw [hb] at h; simp at h; exact hu h.1
                · simp at h
                · cases h
              · rintro (⟨_, h⟩ | ⟨h1, -⟩)
                · rw [hb] at h; simp at h; exact absurd h.1 hu
                · exact h1
          · rw [hi]
            constructor
            · intro h1
              refine .inr ⟨h1, ?_⟩
              rintro (⟨_, _, h⟩ | ⟨_, _, _, _, h⟩ | ⟨n, h, h3⟩)
              · rw [hb] at h; cases h; exact hns _ _ _ rfl
              · exact hnt _ _ _ _ _ h
              · cases h
            · rintro (⟨_, h⟩ | ⟨h1, -⟩)
              · rw [hb] at h; cases h; exact absurd rfl (hns _ _ _)
              · exact h1
          · rw [hp, Assoc.get_erase]
            by_cases hu : u' = u
            · subst hu
              rw [if_pos rfl]
              constructor
              · intro h1; cases h1
              · rintro (⟨_, h⟩ | ⟨-, h2⟩)
                · rw [hb] at h; cases h
                · exact absurd (.inr (.inl ⟨p.source, p.dest, d, bits, by simp⟩)) h2
            · rw [if_neg hu, hi]
              constructor
              · intro h1
                refine .inr ⟨h1, ?_⟩
                rintro (⟨_, _, h⟩ | ⟨_, _, _, _, h⟩ | ⟨n, h, h3⟩)
                · rw [hb] at h; cases h
                · simp at h; exact hu h.1.symm
                · cases h
              · rintro (⟨_, h⟩ | ⟨h1, -⟩)
                · rw [hb] at h; cases h
                · exact h1
    · refine ⟨hcfg.trans hc, hp ▸ hok, ?_⟩
      intro u source dest t
      rw [hp, hi, announced_snoc]
      simp only [Supersedes, WkEv.brings]
      constructor
      · intro h1
        refine .inr ⟨h1, ?_⟩
        rintro (⟨_, _, h⟩ | ⟨_, _, _, _, h⟩ | ⟨n, h, h3⟩)
        · cases h
        · simp at h
        · cases h
      · rintro (⟨⟨_, h⟩, _⟩ | ⟨h1, -⟩)
        · cases h
        · exact h1

/-! ## C59 -/

/-- C59: nothing received from the network, and no command, aborts the thread. -/
theorem c59_total {utf8 : List Nat → Bool} (s : Worker) (e : WkEv) (he : ∀ now data, e = .receive now data → Bytes data) :
    s.step utf8 e ≠ .panic := by
  cases e with
  | expire now => simp [Worker.step]
  | command c clock ok => simp [Worker.step]
  | receive now data =>
    have := c58_total utf8 (he now data rfl)
    unfold Worker.step Worker.receive
    cases hp : parseBrew utf8 data with
    | panic => exact absurd hp this
    | err => simp only [hp]; intro h; cases h
    | ok m => simp only [hp]; cases m <;> (intro h; cases h)

/-- C59: short data reaches the base station if and only if its content arrives while its header still counts, short data
over the network is enabled and the content is at most 2047 bits long by its own account; source and destination are those of
the header. -/
theorem c59_short_data {utf8 : List Nat → Bool} {cfg : Cfg} {h : WkHist} {s s' : Worker} (hr : WkRun utf8 cfg h s) {now : Nat}
    {data : List Nat} {told : List BrewEvent} {sent : List (List Nat)} (hs : s.step utf8 (.receive now data) = .ok (s', told, sent))
    (u source dest : Nat) (d : List Nat) (bits : Nat) :
    .sds u source dest d bits ∈ told ↔
      parseBrew utf8 data = .ok (.frame 1 u bits d) ∧ featureSdsEnabled cfg = true ∧ bits ≤ 2047 ∧
      ∃ t, Announced utf8 h u source dest t := by
  obtain ⟨hc, hok, hi⟩ := wkRun_pending hr
  rcases wk_step_cases hs with ⟨_, h, _⟩ | ⟨now', data', heq, hrec⟩ | ⟨_, _, _, h, _⟩
  · cases h
  · cases heq
    have hcase := (receive_cases hrec).2.2
    constructor
    · intro hm
      rcases hcase with ⟨-, -, rfl⟩ | ⟨m, hp, ⟨u', a, b, -, -, rfl⟩ | ⟨-, -, hn⟩ | ⟨u', bits', d', p, rfl, hf, hb, hg, -, rfl⟩⟩
      · simp at hm
      · simp at hm
      · exact absurd hm (hn _ _ _ _ _)
      · simp only [List.mem_singleton, BrewEvent.sds.injEq] at hm
        obtain ⟨rfl, rfl, rfl, rfl, rfl⟩ := hm
        exact ⟨hp, hc ▸ hf, hb, p.since, (hi _ _ _ _).1 hg⟩
    · rintro ⟨hp, hf, hb, t, ha⟩
      have hg := (hi _ _ _ _).2 ha
      unfold Worker.receive at hrec
      rw [hp] at hrec
      simp only [Res.ok.injEq] at hrec
      unfold Worker.handleFrame at hrec
      rw [if_neg (by decide), if_pos rfl, if_pos (hc ▸ hf), if_neg (by omega)] at hrec
      simp only [hg] at hrec
      cases hrec
      simp
  · cases h

/-- A message to 100 which arrives in two parts: header, an unrelated command, content. -/
example : ∃ h s, WkRun (fun _ => true) ⟨some ⟨"example", none, true⟩, []⟩ h s ∧ ∃ s',
    s.step (fun _ => true) (.receive 20 (buildSds 9 16 [0xab, 0xcd])) = .ok (s', [.sds 9 7 100 [0xab, 0xcd] 16], []) :=
  ⟨_, _, .step (e := .command (.register 5) ⟨0, 0⟩ fun _ => true)
      (.step (e := .receive 10 (buildShort 9 7 100)) (s' := ⟨⟨some ⟨"example", none, true⟩, []⟩, [], [(9, ⟨7, 100, 10⟩)]⟩)
        (told := []) (sent := []) .init (by rfl)) rfl, _, by rfl⟩

/-- C59: a call starts on the base station if and only if the network announces it for a group the operator routes over the
network; it ends when the network says so; voice arrives as sent. -/
theorem c59_calls {utf8 : List Nat → Bool} {cfg : Cfg} {h : WkHist} {s s' : Worker} (hr : WkRun utf8 cfg h s) {now : Nat}
    {data : List Nat} {told : List BrewEvent} {sent : List (List Nat)} (hs : s.step utf8 (.receive now data) = .ok (s', told, sent)) :
    (∀ u source gssi prio service, .groupCallStart u source gssi prio service ∈ told ↔
      (∃ access, parseBrew utf8 data = .ok (.call 2 u (.groupTx source gssi prio access service))) ∧ gssiRoutable cfg gssi = true) ∧
    (∀ u cause, .groupCallEnd u cause ∈ told ↔
      parseBrew utf8 data = .ok (.call 3 u (.cause cause)) ∨ parseBrew utf8 data = .ok (.call 10 u (.cause cause)) ∨
      (cause = 0 ∧ ∃ p, (∀ c, p ≠ .cause c) ∧ (parseBrew utf8 data = .ok (.call 3 u p) ∨ parseBrew utf8 data = .ok (.call 10 u p)))) ∧
    (∀ u bits d, .voice u bits d ∈ told ↔ parseBrew utf8 data = .ok (.frame 0 u bits d)) ∧
    told.length ≤ 1 := by
  obtain ⟨hc, -, -⟩ := wkRun_pending hr
  rcases wk_step_cases hs with ⟨_, h, _⟩ | ⟨now', data', heq, hrec⟩ | ⟨_, _, _, h, _⟩
  · cases h
  · cases heq
    subst hc
    unfold Worker.receive at hrec
    cases hp : parseBrew utf8 data with
    | panic => rw [hp] at hrec; cases hrec
    | err => rw [hp] at hrec; cases hrec; simp
    | ok m =>
      rw [hp] at hrec
      cases m with
      | subscriber t n a b gs => cases hrec; simp
      | error t d => cases hrec; simp
      | service t j => cases hrec; simp
      | call st u p =>
        simp only [Res.ok.injEq] at hrec
        unfold Worker.handleCall at hrec
        by_cases h2 : st = 2
        · subst h2
          rw [if_pos rfl] at hrec
          cases p with
          | groupTx a b c d e =>
            simp only at hrec
            split at hrec
            · rename_i hg
              cases hrec
              simp only [List.mem_singleton, BrewEvent.groupCallStart.injEq, Out.ok.injEq, BrewMsg.call.injEq, CallPayload.groupTx.injEq]
              refine ⟨?_, by simp, by simp, by simp⟩
              intro u' s' g' p' v'
              constructor
              · rintro ⟨rfl, rfl, rfl, rfl, rfl⟩; exact ⟨⟨d, trivial, rfl, rfl, rfl, rfl, rfl, rfl⟩, hg⟩
              · rintro ⟨⟨_, -, rfl, rfl, rfl, rfl, -, rfl⟩, -⟩; exact ⟨rfl, rfl, rfl, rfl, rfl⟩
            · rename_i hg
              cases hrec
              refine ⟨?_, by simp, by simp, by simp⟩
              intro u' s' g' p' v'
              simp only [List.not_mem_nil, false_iff, not_and, Out.ok.injEq, BrewMsg.call.injEq, CallPayload.groupTx.injEq]
              rintro ⟨_, -, rfl, rfl, rfl, rfl, -, rfl⟩
              exact hg
          | _ => cases hrec; simp
        · rw [if_neg h2] at hrec
          by_cases h3 : st = 3
          · subst h3
            rw [if_pos rfl] at hrec; cases hrec
            refine ⟨by simp, ?_, by simp, by simp⟩
            intro u' c'
            cases p with
            | cause c =>
              simp only [List.mem_singleton, BrewEvent.groupCallEnd.injEq, Out.ok.injEq, BrewMsg.call.injEq, CallPayload.cause.injEq]
              constructor
              · rintro ⟨rfl, rfl⟩; exact .inl ⟨trivial, rfl, rfl⟩
              · rintro (⟨-, rfl, rfl⟩ | ⟨h, -⟩ | ⟨rfl, p, hp, ⟨-, -, rfl⟩ | ⟨h, -⟩⟩)
                · exact ⟨rfl, rfl⟩
                · omega
                · exact absurd rfl (hp c)
                · omega
            | _ =>
              simp only [List.mem_singleton, BrewEvent.groupCallEnd.injEq, Out.ok.injEq, BrewMsg.call.injEq]
              constructor
              · rintro ⟨rfl, rfl⟩; exact .inr (.inr ⟨rfl, _, by simp, .inl ⟨trivial, rfl, rfl⟩⟩)
              · rintro (⟨-, -, h⟩ | ⟨h, -⟩ | ⟨rfl, p, hp, ⟨-, rfl, -⟩ | ⟨h, -⟩⟩)
                · cases h
                · omega
                · exact ⟨rfl, rfl⟩
                · omega
          · rw [if_neg h3] at hrec
            by_cases h10 : st = 10
            · subst h10
              rw [if_pos rfl] at hrec; cases hrec
              refine ⟨by simp, ?_, by simp, by simp⟩
              intro u' c'
              cases p with
              | cause c =>
                simp only [List.mem_singleton, BrewEvent.groupCallEnd.injEq, Out.ok.injEq, BrewMsg.call.injEq, CallPayload.cause.injEq]
                constructor
                · rintro ⟨rfl, rfl⟩; exact .inr (.inl ⟨trivial, rfl, rfl⟩)
                · rintro (⟨h, -⟩ | ⟨-, rfl, rfl⟩ | ⟨rfl, p, hp, ⟨h, -⟩ | ⟨-, -, rfl⟩⟩)
                  · omega
                  · exact ⟨rfl, rfl⟩
                  · omega
                  · exact absurd rfl (hp c)
              | _ =>
                simp only [List.mem_singleton, BrewEvent.groupCallEnd.injEq, Out.ok.injEq, BrewMsg.call.injEq]
                constructor
                · rintro ⟨rfl, rfl⟩; exact .inr (.inr ⟨rfl, _, by simp, .inr ⟨trivial, rfl, rfl⟩⟩)
                · rintro (⟨h, -⟩ | ⟨-, -, h⟩ | ⟨rfl, p, hp, ⟨h, -⟩ | ⟨-, rfl, -⟩⟩)
                  · omega
                  · cases h
                  · omega
                  · exact ⟨rfl, rfl⟩
            · rw [if_neg h10] at hrec
              have hn : told = [] := by
                split at hrec
                · split at hrec <;> cases hrec <;> rfl
                · cases hrec; rfl
              subst hn
              simp [h2, h3, h10]
      | frame t u bits d =>
        simp only [Res.ok.injEq] at hrec
        unfold Worker.handleFrame at hrec
        by_cases h0 : t = 0
        · subst h0
          rw [if_pos rfl] at hrec; cases hrec
          refine ⟨by simp, by simp, ?_, by simp⟩
          intro u' b' d'
          simp only [List.mem_singleton, BrewEvent.voice.injEq, Out.ok.injEq, BrewMsg.frame.injEq]
          constructor
          · rintro ⟨rfl, rfl, rfl⟩; exact ⟨trivial, rfl, rfl, rfl⟩
          · rintro ⟨-, rfl, rfl, rfl⟩; exact ⟨rfl, rfl, rfl⟩
        · rw [if_neg h0] at hrec
          have hn : told = [] ∨ (∃ a b c d n, told = [.sds a b c d n]) ∨ ∃ a b, told = [.sdsReport a b] := by
            split at hrec
            · split at hrec
              · split at hrec
                · cases hrec; exact .inl rfl
                · split at hrec <;> cases hrec
                  · exact .inr (.inl ⟨_, _, _, _, _, rfl⟩)
                  · exact .inl rfl
              · cases hrec; exact .inl rfl
            · split at hrec <;> cases hrec
              · exact .inr (.inr ⟨_, _, rfl⟩)
              · exact .inl rfl
          rcases hn with rfl | ⟨_, _, _, _, _, rfl⟩ | ⟨_, _, rfl⟩ <;> simp [h0]
  · cases h

end Verif.Brew
