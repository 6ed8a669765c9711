import Verif.Brew.NetCallProps
import Verif.Brew.CallForward
import Verif.Cmce.CallNet
/-!
# C62: call control and the backhaul entity together

Both run side by side and exchange messages through two queues; the messages of a queue are taken in order, with any delay
(message_router.rs delivers all messages between two ticks; C35).
-/
namespace Verif.Brew
open Cmce (CcEv CcOut CcRun Cc messages heard NoReuse Held SilentIn)

/-! ## Model -/

/-- The message for call control (entity.rs:355-366, 400-411, 428-439, 457-464, 598-608). -/
def EntOut.toCalls : EntOut → Option CcEv
  | .callStart u speaker gssi _ => some (.netStart u speaker gssi)
  | .callEnd u => some (.netEnd u)
  | _ => none

/-- The event for the entity (entity.rs:680-725); `fresh` is the UUID drawn, if one is needed. -/
def eventOf (fresh : Nat) : CcOut → Option EntEv
  | .netGranted id source gssi ts => some (.granted id source gssi ts fresh)
  | .netReleased id ts => some (.released id ts)
  | .netEnded id ts => some (.ended id ts)
  | .netCallEnd u => some (.netEnd u)
  | .netReady u id ts usage => some (.netReady u id ts usage)
  | _ => none

/-- Events of call control which come from the backhaul. -/
def fromBackhaul : CcEv → Bool
  | .netStart _ _ _ => true
  | .netEnd _ => true
  | _ => false

/-- Call control and the entity, with what has happened to them and the messages on the way. -/
structure Net where
  calls : List (CcEv × List CcOut)
  cc : Cc
  events : EntHist
  ent : Ent
  toCc : List CcEv
  toEnt : List CcOut

def Net.init (cfg : Cfg) (latency : Nat) : Net := ⟨[], .init (gssiRoutable cfg), [], .init cfg latency, [], []⟩

def Net.entStep (n : Net) (e : EntEv) : Net :=
  let r := n.ent.step e
  { n with events := n.events ++ [(e, r.2)], ent := r.1, toCc := n.toCc ++ r.2.filterMap EntOut.toCalls }

def Net.ccStep (n : Net) (e : CcEv) : Option Net :=
  match n.cc.step e with
  | .ok r => some { n with calls := n.calls ++ [(e, r.2)], cc := r.1, toEnt := n.toEnt ++ r.2.filter toBackhaul }
  | .panic => none

/-- What can happen: an event from elsewhere to one of them, or the next message of a queue is taken. -/
inductive NetEv where
  | ent (e : EntEv)
  | cc (e : CcEv)
  | takeEnt (fresh : Nat)
  | takeCc

def Net.step (n : Net) : NetEv → Option Net
  | .ent e => if e.fromCalls = none then some (n.entStep e) else none
  | .cc e => if fromBackhaul e then none else n.ccStep e
  | .takeEnt fresh =>
    match n.toEnt with
    | m :: q => (eventOf fresh m).map fun e => ({ n with toEnt := q } : Net).entStep e
    | [] => none
  | .takeCc =>
    match n.toCc with
    | e :: q => ({ n with toCc := q } : Net).ccStep e
    | [] => none

/-- Histories of both. -/
inductive NetRun (cfg : Cfg) (latency : Nat) : Net → Prop where
  | init : NetRun cfg latency (.init cfg latency)
  | step {n n' : Net} (e : NetEv) : NetRun cfg latency n → n.step e = some n' → NetRun cfg latency n'
  | reorderCc {n : Net} {cc' : Cc} : NetRun cfg latency n → n.cc.Reordered cc' → NetRun cfg latency { n with cc := cc' }
  | reorderEnt {n : Net} {a : Assoc Nat NetCall} {b : Assoc Nat Hanging} {c : Assoc Nat (List Nat)} :
      NetRun cfg latency n → a.Perm n.ent.active → b.Perm n.ent.hanging → Reordered n.ent.subs c →
      NetRun cfg latency { n with ent := { n.ent with active := a, hanging := b, subs := c } }

/-! ## Specification -/

/-- The server has announced session `u` with this speaker in this group. -/
def AnnouncedAs (h : EntHist) (u speaker gssi : Nat) : Prop :=
  ∃ x ∈ h, ∃ p sv r n j, x.1 = .event (.groupCallStart u speaker gssi p sv) r n j

/-- Call control was told that session `u` is over. -/
def Over (h : EntHist) (u : Nat) : Prop := ∃ x ∈ h, .callEnd u ∈ x.2

/-- The server does not announce a session again which is over. -/
def NoReopen (h : EntHist) : Prop :=
  ∀ pre x post u speaker gssi p sv r n j, h = pre ++ x :: post → x.1 = .event (.groupCallStart u speaker gssi p sv) r n j → ¬ Over pre u

/-! ## Lemmas -/

theorem netRun_parts {cfg : Cfg} {latency : Nat} {n : Net} (hr : NetRun cfg latency n) :
    CcRun (gssiRoutable cfg) n.calls n.cc ∧ EntRun cfg latency n.events n.ent := by
  induction hr with
  | init => exact ⟨.init, .init⟩
  | reorderCc _ h ih => exact ⟨.reorder ih.1 h, ih.2⟩
  | reorderEnt _ h1 h2 h3 ih => exact ⟨ih.1, .reorder ih.2 h1 h2 h3⟩
  | @step n n' e _ h ih =>
    have hcc : ∀ (m : Net) (e : CcEv), CcRun (gssiRoutable cfg) m.calls m.cc → EntRun cfg latency m.events m.ent → ∀ m', m.ccStep e = some m' →
        CcRun (gssiRoutable cfg) m'.calls m'.cc ∧ EntRun cfg latency m'.events m'.ent := by
      intro m e h1 h2 m' hm
      unfold Net.ccStep at hm
      split at hm
      · rename_i r hr
        cases hm
        exact ⟨.step h1 hr, h2⟩
      · cases hm
    cases e with
    | ent e =>
      simp only [Net.step] at h
      split at h
      · cases h; exact ⟨ih.1, .step e ih.2⟩
      · cases h
    | cc e =>
      simp only [Net.step] at h
      split at h
      · cases h
      · exact hcc n e ih.1 ih.2 n' h
    | takeEnt fresh =>
      simp only [Net.step] at h
      split at h
      · simp only [Option.map_eq_some_iff] at h
        obtain ⟨e, _, rfl⟩ := h
        exact ⟨ih.1, .step e ih.2⟩
      · cases h
    | takeCc =>
      simp only [Net.step] at h
      split at h
      · rename_i e q hq
        exact hcc { n with toCc := q } e ih.1 ih.2 n' h
      · cases h

theorem AnnouncedAs.snoc {h : EntHist} {u sp g : Nat} (ha : AnnouncedAs h u sp g) (x : EntEv × List EntOut) : AnnouncedAs (h ++ [x]) u sp g := by
  obtain ⟨y, hy, rest⟩ := ha
  exact ⟨y, List.mem_append_left _ hy, rest⟩

theorem Over.snoc {h : EntHist} {u : Nat} (ho : Over h u) (x : EntEv × List EntOut) : Over (h ++ [x]) u := by
  obtain ⟨y, hy, rest⟩ := ho
  exact ⟨y, List.mem_append_left _ hy, rest⟩

theorem over_snoc {h : EntHist} {u : Nat} {x : EntEv × List EntOut} (ho : Over (h ++ [x]) u) : Over h u ∨ .callEnd u ∈ x.2 := by
  obtain ⟨y, hy, h1⟩ := ho
  rcases List.mem_append.mp hy with hy | hy
  · exact .inl ⟨y, hy, h1⟩
  · simp only [List.mem_singleton] at hy; subst hy; exact .inr h1

/-- Somebody listens to session `u` on timeslot `ts` as announced, or its turn has ended silently. -/
def Right (cfg : Cfg) (n : Net) (u ts : Nat) : Prop :=
  ∃ id sp g, AnnouncedAs n.events u sp g ∧ (Held n.cc u id sp g ts ∨ SilentIn (gssiRoutable cfg) n.calls u id sp g ts)

structure NetInv (cfg : Cfg) (n : Net) (u : Nat) : Prop where
  started : ∀ sp g, .netStart u sp g ∈ n.toCc → AnnouncedAs n.events u sp g
  ended : .netEnd u ∈ n.toCc → Over n.events u
  alive : session u n.events ≠ none → ¬ Over n.events u
  answer : ¬ Over n.events u → ∀ a b id ts usage, n.toEnt = a ++ .netReady u id ts usage :: b → Right cfg n u ts ∨ .netCallEnd u ∈ b
  playing : ∀ c ts, session u n.events = some c → c.ts = some ts → Right cfg n u ts ∨ .netCallEnd u ∈ n.toEnt

theorem eventOf_from {fresh : Nat} {m : CcOut} {e : EntEv} (h : eventOf fresh m = some e) : e.fromCalls = some m := by
  cases m <;> simp only [eventOf, Option.some.injEq, reduceCtorEq] at h <;> subst h <;> rfl

/-- The timeslot of a session comes from call control. -/
theorem session_ts {u : Nat} {t : Tdma.Time} {st : Option Session} {e : EntEv} {c : Session} {ts : Nat}
    (h : sessionAfter u t st e = some c) (hts : c.ts = some ts) :
    (∃ c', st = some c' ∧ c'.ts = some ts ∧ e ≠ .netEnd u) ∨ (∃ id us, e = .netReady u id ts us ∧ st ≠ none) := by
  cases e with
  | event b r n j =>
    cases b with
    | groupCallStart v a g p sv =>
      simp only [sessionAfter] at h
      split at h
      · cases st with
        | none => simp only [Option.some.injEq] at h; subst h; cases hts
        | some c' => simp only [Option.some.injEq] at h; subst h; exact .inl ⟨c', rfl, hts, by simp⟩
      · exact .inl ⟨c, h, hts, by simp⟩
    | groupCallEnd v cause =>
      simp only [sessionAfter] at h
      split at h
      · cases h
      · exact .inl ⟨c, h, hts, by simp⟩
    | disconnected => cases h
    | voice v bits data =>
      simp only [sessionAfter, Option.map_eq_some_iff] at h
      obtain ⟨c', h1, h2⟩ := h
      refine .inl ⟨c', h1, ?_, by simp⟩
      split at h2 <;> (subst h2; exact hts)
    | _ => exact .inl ⟨c, h, hts, by simp⟩
  | netEnd v =>
    simp only [sessionAfter] at h
    split at h
    · cases h
    · rename_i hne
      exact .inl ⟨c, h, hts, by intro he; cases he; exact hne rfl⟩
  | netReady v id ts' us =>
    simp only [sessionAfter, Option.map_eq_some_iff] at h
    obtain ⟨c', h1, h2⟩ := h
    split at h2
    · rename_i e
      subst h2 e
      simp only [Option.some.injEq] at hts
      subst hts
      exact .inr ⟨id, us, rfl, by rw [h1]; simp⟩
    · subst h2; exact .inl ⟨c', h1, hts, by simp⟩
  | playout j =>
    simp only [sessionAfter, Option.map_eq_some_iff] at h
    obtain ⟨c', h1, h2⟩ := h
    refine .inl ⟨c', h1, ?_, by simp⟩
    split at h2 <;> (subst h2; exact hts)
  | _ => exact .inl ⟨c, h, hts, by simp⟩

theorem session_opens {u : Nat} {t : Tdma.Time} {e : EntEv} (h : sessionAfter u t none e ≠ none) :
    ∃ a g p sv r n j, e = .event (.groupCallStart u a g p sv) r n j := by
  cases e with
  | event b r n j =>
    cases b with
    | groupCallStart v a g p sv =>
      simp only [sessionAfter] at h
      split at h
      · rename_i e; subst e; exact ⟨a, g, p, sv, r, n, j, rfl⟩
      · exact absurd rfl h
    | groupCallEnd v cause => simp only [sessionAfter] at h; split at h <;> exact absurd rfl h
    | _ => exact absurd rfl h
  | netEnd v => simp only [sessionAfter] at h; split at h <;> exact absurd rfl h
  | _ => exact absurd rfl h

theorem netInv_ent {cfg : Cfg} {latency : Nat} {n : Net} {u : Nat} (hr : EntRun cfg latency n.events n.ent) (hi : NetInv cfg n u) (e : EntEv)
    (hno : NoReopen (n.entStep e).events) {q : List CcOut}
    (hq : (e.fromCalls = none ∧ q = n.toEnt) ∨ ∃ m, e.fromCalls = some m ∧ n.toEnt = m :: q) :
    NetInv cfg { n.entStep e with toEnt := q } u := by
  have hmono : ∀ ts, Right cfg n u ts → Right cfg { n.entStep e with toEnt := q } u ts := by
    rintro ts ⟨id, sp, g, h1, h2⟩
    exact ⟨id, sp, g, h1.snoc _, h2⟩
  have hend := (c62_end hr e u).1
  refine ⟨?_, ?_, ?_, ?_, ?_⟩
  · intro sp g hm
    rcases List.mem_append.mp hm with hm | hm
    · exact (hi.started sp g hm).snoc _
    · obtain ⟨m, hmo, hc⟩ := List.mem_filterMap.mp hm
      cases m <;> simp only [EntOut.toCalls, Option.some.injEq, reduceCtorEq, CcEv.netStart.injEq] at hc
      rename_i u' sp' g' p
      obtain ⟨rfl, rfl, rfl⟩ := hc
      obtain ⟨⟨sv, r, k, j, rfl⟩, _⟩ := (c62_start hr e u' sp' g' p).mp hmo
      exact ⟨(_, _), List.mem_append_right _ (List.mem_singleton.mpr rfl), p, sv, r, k, j, rfl⟩
  · intro hm
    rcases List.mem_append.mp hm with hm | hm
    · exact (hi.ended hm).snoc _
    · obtain ⟨m, hmo, hc⟩ := List.mem_filterMap.mp hm
      cases m <;> simp only [EntOut.toCalls, Option.some.injEq, reduceCtorEq, CcEv.netEnd.injEq] at hc
      subst hc
      exact ⟨(_, _), List.mem_append_right _ (List.mem_singleton.mpr rfl), hmo⟩
  · intro hs ho
    change session u (n.events ++ [(e, (n.ent.step e).2)]) ≠ none at hs
    rw [session_snoc] at hs
    have hnew : .callEnd u ∉ (n.ent.step e).2 := by
      intro hm
      obtain ⟨_, ⟨cause, r, k, j, rfl⟩ | ⟨r, k, j, rfl⟩⟩ := hend.mp hm
      · simp [sessionAfter] at hs
      · exact hs rfl
    rcases over_snoc ho with ho | ho
    · cases hse : session u n.events with
      | some c => exact hi.alive (by rw [hse]; simp) ho
      | none =>
        rw [hse] at hs
        obtain ⟨a, g, p, sv, r, k, j, he⟩ := session_opens hs
        exact hno n.events (e, (n.ent.step e).2) [] u a g p sv r k j rfl he ho
    · exact hnew ho
  · intro ho a b id ts usage hq'
    have ho' : ¬ Over n.events u := fun h => ho (h.snoc _)
    simp only at hq'
    rcases hq with ⟨_, hq⟩ | ⟨m, _, hq⟩
    · rw [hq] at hq'
      rcases hi.answer ho' a b id ts usage hq' with h | h
      · exact .inl (hmono ts h)
      · exact .inr h
    · rw [hq'] at hq
      rcases hi.answer ho' (m :: a) b id ts usage hq with h | h
      · exact .inl (hmono ts h)
      · exact .inr h
  · intro c ts hs hts
    change session u (n.events ++ [(e, (n.ent.step e).2)]) = some c at hs
    rw [session_snoc] at hs
    rcases session_ts hs hts with ⟨c', h1, h2, h3⟩ | ⟨id, us, he, h1⟩
    · rcases hi.playing c' ts h1 h2 with h | h
      · exact .inl (hmono ts h)
      · right
        rcases hq with ⟨_, hq⟩ | ⟨m, hm, hq⟩
        · rw [hq]; exact h
        · rw [hq] at h
          rcases List.mem_cons.mp h with h | h
          · subst h
            cases e <;> simp only [EntEv.fromCalls, Option.some.injEq, reduceCtorEq, CcOut.netCallEnd.injEq] at hm
            subst hm
            exact absurd rfl h3
          · exact h
    · simp only at he
      rcases hq with ⟨hm, _⟩ | ⟨m, hm, hq⟩
      · rw [he] at hm; cases hm
      · rw [he] at hm
        simp only [EntEv.fromCalls, Option.some.injEq] at hm
        subst hm
        rcases hi.answer (hi.alive h1) [] q id ts us hq with h | h
        · exact .inl (hmono ts h)
        · exact .inr h

theorem netInv_cc {cfg : Cfg} {n n' : Net} {u : Nat} (hr : CcRun (gssiRoutable cfg) n.calls n.cc) (hi : NetInv cfg n u) {e : CcEv}
    (hs : n.ccStep e = some n') (hn : NoReuse (messages n'.calls)) {q : List CcEv}
    (hq : (fromBackhaul e = false ∧ q = n.toCc) ∨ n.toCc = e :: q) : NetInv cfg { n' with toCc := q } u := by
  unfold Net.ccStep at hs
  split at hs
  · rename_i r hstep
    cases hs
    obtain ⟨cc', o⟩ := r
    have hsub : ∀ x ∈ q, x ∈ n.toCc := by
      intro x hx
      rcases hq with ⟨_, rfl⟩ | hq
      · exact hx
      · rw [hq]; exact List.mem_cons_of_mem _ hx
    have hm : messages (n.calls ++ [(e, o)]) = messages n.calls ++ o := by simp [messages]
    have hnr : NoReuse (messages n.calls ++ o) := by rw [← hm]; exact hn
    have hright : ¬ Over n.events u → ∀ ts, Right cfg n u ts →
        Right cfg ⟨n.calls ++ [(e, o)], cc', n.events, n.ent, q, n.toEnt ++ o.filter toBackhaul⟩ u ts ∨ .netCallEnd u ∈ o.filter toBackhaul := by
      rintro ho ts ⟨id, sp, g, h1, h2⟩
      rcases h2 with h2 | h2
      · have hne : e ≠ .netEnd u := by
          rintro rfl
          rcases hq with ⟨h, _⟩ | hq
          · cases h
          · exact ho (hi.ended (by rw [hq]; simp))
        rcases Cmce.step_held hr hnr hstep h2 hne with h | h | ⟨c, k1, k2, k3, k4, k5, k6, k7⟩
        · exact .inl ⟨id, sp, g, h1, .inl h⟩
        · exact .inr (List.mem_filter.mpr ⟨h, rfl⟩)
        · exact .inl ⟨id, sp, g, h1, .inr ⟨n.calls, e, o, [], n.cc, cc', c, rfl, hr, hstep, k1, k2, k3, k4, k5, k6, k7⟩⟩
      · exact .inl ⟨id, sp, g, h1, .inr (h2.snoc _)⟩
    refine ⟨fun sp g h => hi.started sp g (hsub _ h), fun h => hi.ended (hsub _ h), hi.alive, ?_, ?_⟩
    · intro ho a b id ts usage hsplit
      simp only at hsplit
      have hnew : CcOut.netReady u id ts usage ∈ o →
          Right cfg ⟨n.calls ++ [(e, o)], cc', n.events, n.ent, q, n.toEnt ++ o.filter toBackhaul⟩ u ts := by
        intro hmem
        obtain ⟨sp, g, rfl, hh⟩ := Cmce.step_ready hr hstep hmem
        refine ⟨id, sp, g, ?_, .inl hh⟩
        rcases hq with ⟨h, _⟩ | hq
        · cases h
        · exact hi.started sp g (by rw [hq]; simp)
      rw [List.append_eq_append_iff] at hsplit
      rcases hsplit with ⟨a', rfl, h2⟩ | ⟨c', h1, h2⟩
      · left
        apply hnew
        have : CcOut.netReady u id ts usage ∈ o.filter toBackhaul := by rw [h2]; simp
        exact (List.mem_filter.mp this).1
      · cases c' with
        | nil =>
          left
          apply hnew
          have : CcOut.netReady u id ts usage ∈ o.filter toBackhaul := by rw [← (by simpa using h2 : _ = o.filter toBackhaul)]; simp
          exact (List.mem_filter.mp this).1
        | cons x c' =>
          rw [List.cons_append] at h2
          simp only [List.cons.injEq] at h2
          obtain ⟨rfl, rfl⟩ := h2
          rcases hi.answer ho a c' id ts usage h1 with h | h
          · rcases hright ho ts h with h | h
            · exact .inl h
            · exact .inr (List.mem_append_right _ h)
          · exact .inr (List.mem_append_left _ h)
    · intro c ts hse hts
      have ho := hi.alive (by rw [show session u n.events = some c from hse]; simp)
      rcases hi.playing c ts hse hts with h | h
      · rcases hright ho ts h with h | h
        · exact .inl h
        · exact .inr (List.mem_append_right _ h)
      · exact .inr (List.mem_append_left _ h)
  · cases hs

theorem NoReopen.left {h : EntHist} {x : EntEv × List EntOut} (hn : NoReopen (h ++ [x])) : NoReopen h := by
  intro pre y post u a g p sv r n j he
  exact hn pre y (post ++ [x]) u a g p sv r n j (by rw [he]; simp)

theorem ccStep_same {m m' : Net} {e : CcEv} (hm : m.ccStep e = some m') :
    m'.events = m.events ∧ m'.ent = m.ent ∧ m'.toCc = m.toCc ∧ ∃ o, m'.calls = m.calls ++ [(e, o)] := by
  unfold Net.ccStep at hm
  split at hm
  · cases hm; exact ⟨rfl, rfl, rfl, _, rfl⟩
  · cases hm

theorem netInv_run {cfg : Cfg} {latency : Nat} {n : Net} (hr : NetRun cfg latency n) (hn : NoReuse (messages n.calls))
    (ho : NoReopen n.events) (u : Nat) : NetInv cfg n u := by
  have hleft : ∀ {h : List (CcEv × List CcOut)} {e o}, NoReuse (messages (h ++ [(e, o)])) → NoReuse (messages h) := by
    intro h e o hn
    have hm : messages (h ++ [(e, o)]) = messages h ++ o := by simp [messages]
    rw [hm] at hn
    exact hn.left
  induction hr with
  | init =>
    refine ⟨by simp [Net.init], by simp [Net.init], ?_, ?_, ?_⟩
    · intro h; exact absurd rfl h
    · intro _ a b _ _ _ h; simp [Net.init] at h
    · intro c ts h; cases h
  | @reorderCc n cc' hr h ih =>
    have i := ih hn ho
    have hcc := (netRun_parts hr).1
    have hright : ∀ ts, Right cfg n u ts → Right cfg { n with cc := cc' } u ts := by
      rintro ts ⟨id, sp, g, h1, h2⟩
      refine ⟨id, sp, g, h1, ?_⟩
      rcases h2 with ⟨hrt, c, h2⟩ | h2
      · left
        obtain ⟨calls', f, hp, hf, rfl⟩ := h
        refine ⟨hrt, c, ?_⟩
        simp only [Cmce.get_perm hp (Cmce.ccRun_inv hcc).ok]
        exact h2
      · exact .inr h2
    refine ⟨i.started, i.ended, i.alive, ?_, ?_⟩
    · intro h1 a b id ts us h2
      exact (i.answer h1 a b id ts us h2).imp (hright ts) (fun x => x)
    · intro c ts h1 h2
      exact (i.playing c ts h1 h2).imp (hright ts) (fun x => x)
  | reorderEnt _ _ _ _ ih =>
    have i := ih hn ho
    exact ⟨i.started, i.ended, i.alive, i.answer, i.playing⟩
  | @step n n' e hr h ih =>
    obtain ⟨hcc, hent⟩ := netRun_parts hr
    cases e with
    | ent e =>
      simp only [Net.step] at h
      split at h
      · rename_i hf
        cases h
        exact netInv_ent hent (ih hn ho.left) e ho (.inl ⟨hf, rfl⟩)
      · cases h
    | cc e =>
      simp only [Net.step] at h
      split at h
      · cases h
      · rename_i hf
        obtain ⟨h1, h2, h3, o, h4⟩ := ccStep_same h
        have hn' := hn
        rw [h4] at hn
        rw [h1] at ho
        have := netInv_cc hcc (ih (hleft hn) ho) h hn' (q := n.toCc) (.inl ⟨by simpa using hf, rfl⟩)
        rw [← h3] at this
        exact this
    | takeEnt fresh =>
      simp only [Net.step] at h
      split at h
      · rename_i m q hq
        simp only [Option.map_eq_some_iff] at h
        obtain ⟨e, he, rfl⟩ := h
        exact netInv_ent hent (ih hn ho.left) e ho (.inr ⟨m, eventOf_from he, hq⟩)
      · cases h
    | takeCc =>
      simp only [Net.step] at h
      split at h
      · rename_i e q hq
        obtain ⟨h1, h2, h3, o, h4⟩ := ccStep_same h
        have hn' := hn
        rw [h4] at hn
        rw [h1] at ho
        have i := ih (hleft hn) ho
        have hstep : n.ccStep e = some { n' with toCc := n.toCc } := by
          unfold Net.ccStep at h ⊢
          split at h
          · rename_i r hr'
            cases h
            simp only at hr'
            rw [hr']
          · cases h
        have := netInv_cc hcc i hstep hn' (q := q) (.inr hq)
        have e3 : n' = { { n' with toCc := n.toCc } with toCc := q } := by
          obtain ⟨a, b, c, d, f, g⟩ := n'
          simp only at h3
          rw [h3]
        rw [e3]
        exact this
      · cases h

end Verif.Brew
