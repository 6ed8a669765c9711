import Verif.Brew.LinkProps
/-!
# C61: local speakers on the network

Histories of the entity alone. The specification speaks of what call control and the MAC told the entity (floor granted,
released, call ended, voice received), of the state of the connection, and of the commands to the worker.
-/
namespace Verif.Brew
open Codec (Out)

/-! ## Histories -/

/-- A history: each event with what was sent. -/
abbrev EntHist := List (EntEv × List EntOut)

/-- The entity after a history. The order in which its tables are iterated may change at any time. -/
inductive EntRun (cfg : Cfg) (latency : Nat) : EntHist → Ent → Prop where
  | init : EntRun cfg latency [] (.init cfg latency)
  | step {h : EntHist} {s : Ent} (e : EntEv) : EntRun cfg latency h s → EntRun cfg latency (h ++ [(e, (s.step e).2)]) (s.step e).1
  | reorder {h : EntHist} {s : Ent} {a : Assoc Nat NetCall} {b : Assoc Nat Hanging} {c : Assoc Nat (List Nat)} :
      EntRun cfg latency h s → a.Perm s.active → b.Perm s.hanging → Reordered s.subs c →
      EntRun cfg latency h { s with active := a, hanging := b, subs := c }

/-! ## Specification -/

/-- Whether the entity knows of a connection: what the last event about it says. -/
def linkUp (h : EntHist) : Bool := h.foldl (fun up x => match x.1 with
  | .event .connected _ _ _ => true
  | .event .disconnected _ _ _ => false
  | _ => up) false

/-- The floor in timeslot `ts` is granted to a station whose calls go over the network, at a time when there is a connection. -/
def Accepts (cfg : Cfg) (pre : EntHist) (ts : Nat) : EntEv → Prop
  | .granted _ source _ ts' _ => ts' = ts ∧ linkUp pre = true ∧ issiRoutable cfg source = true
  | _ => False

/-- The floor in timeslot `ts` is released, or the call there ends. -/
def Ends (ts : Nat) : EntEv → Prop
  | .released _ ts' => ts' = ts
  | .ended _ ts' => ts' = ts
  | _ => False

/-- Timeslot `ts` carries session `uuid` of the network for a call: the last grant accepted there was for this call, to this
station in this group, the network was told of it, and nothing has ended it. -/
def Carries (cfg : Cfg) (h : EntHist) (ts : Nat) (f : Fwd) : Prop :=
  ∃ (pre : EntHist) (fresh : Nat) (out : List EntOut) (post : EntHist),
    h = pre ++ (.granted f.callId f.source f.gssi ts fresh, out) :: post ∧
    linkUp pre = true ∧ issiRoutable cfg f.source = true ∧
    out = [.cmd (.groupTx f.uuid f.source f.gssi 0 0)] ∧
    ∀ p1 x p2, post = p1 ++ x :: p2 →
      ¬ Ends ts x.1 ∧ ¬ Accepts cfg (pre ++ (.granted f.callId f.source f.gssi ts fresh, out) :: p1) ts x.1

/-- The format in which the network expects a voice block: a zero byte, then 35 bytes in which the block's 274 bits stand with
the first bit on top. Blocks which are already bytes are passed on. -/
def Ste (block out : List Nat) : Prop :=
  (block.length = 36 ∧ out = block) ∨ (block.length = 35 ∧ out = 0 :: block) ∨
  (274 ≤ block.length ∧ ∃ bytes, out = 0 :: bytes ∧ bytes.length = 35 ∧ (∀ b ∈ bytes, b < 256) ∧
    ∀ k, k < 280 → ((bytes.getD (k / 8) 0).testBit (7 - k % 8) = true ↔ k < 274 ∧ block.getD k 0 % 2 = 1))

/-- Where a session stands: not begun, open for a speaker in a group, closed; or something went wrong. -/
inductive Stage where
  | before
  | open (source gssi : Nat)
  | closed
  | bad
  deriving DecidableEq, Repr

/-- GROUP_TX begins a session or names another speaker; voice belongs into an open session; GROUP_IDLE closes it. Nothing
follows. -/
def stageAfter (u : Nat) (st : Stage) : BrewCmd → Stage
  | .groupTx v source gssi _ _ => if v = u then (match st with
      | .before => .open source gssi
      | .open _ _ => .open source gssi
      | _ => .bad) else st
  | .voice v _ _ => if v = u then (match st with
      | .open s g => .open s g
      | _ => .bad) else st
  | .groupIdle v _ => if v = u then (match st with
      | .open _ _ => .closed
      | _ => .bad) else st
  | _ => st

/-- The commands of a history, in order. -/
def entCmds (h : EntHist) : List BrewCmd := h.flatMap fun x => cmdsOf x.2

def stage (u : Nat) (h : EntHist) : Stage := (entCmds h).foldl (stageAfter u) .before

/-- The UUIDs drawn for grants. -/
def drawn (h : EntHist) : List Nat := h.filterMap fun x => match x.1 with
  | .granted _ _ _ _ fresh => some fresh
  | _ => none

/-! ## Lemmas -/

theorem linkUp_snoc (h : EntHist) (x : EntEv × List EntOut) : linkUp (h ++ [x]) = match x.1 with
    | .event .connected _ _ _ => true
    | .event .disconnected _ _ _ => false
    | _ => linkUp h := by
  unfold linkUp
  rw [List.foldl_append]
  rfl

theorem ent_cfg_connected {cfg : Cfg} {latency : Nat} {h : EntHist} {s : Ent} (hr : EntRun cfg latency h s) :
    s.cfg = cfg ∧ s.connected = linkUp h := by
  induction hr with
  | init => exact ⟨rfl, rfl⟩
  | reorder _ _ _ _ ih => exact ih
  | @step h s e hr ih =>
    rw [linkUp_snoc, ← ih.1, ← ih.2]
    cases e with
    | event b r n j =>
      cases b <;> simp only [Ent.step, Ent.event, Ent.linkDown, Ent.callStart, Ent.callEnd, Ent.voice] <;>
        (try split) <;> (try split) <;> (try split) <;> first | exact ⟨rfl, rfl⟩ | exact ⟨trivial, trivial⟩
    | playout j => simp only [Ent.step, Ent.playout]; split <;> exact ⟨rfl, rfl⟩
    | granted id source gssi ts fresh =>
      simp only [Ent.step, Ent.localStart]
      split
      · exact ⟨rfl, rfl⟩
      · split
        · exact ⟨rfl, rfl⟩
        · split <;> exact ⟨rfl, rfl⟩
    | released id ts => simp only [Ent.step, Ent.localStop]; split <;> exact ⟨rfl, rfl⟩
    | netEnd u => simp only [Ent.step, Ent.dropCall]; split <;> (try split) <;> exact ⟨rfl, rfl⟩
    | netReady u id ts us => simp only [Ent.step, Ent.ready]; split <;> exact ⟨rfl, rfl⟩
    | update u =>
      cases u <;> simp only [Ent.step, Ent.update] <;> (try split) <;> first | exact ⟨rfl, rfl⟩ | exact ⟨trivial, trivial⟩
    | _ => exact ⟨rfl, rfl⟩

/-- Whether a command belongs to a voice session. -/
def BrewCmd.ofSession : BrewCmd → Bool
  | .groupTx _ _ _ _ _ => true
  | .voice _ _ _ => true
  | .groupIdle _ _ => true
  | _ => false

theorem stageAfter_other {u : Nat} {st : Stage} {c : BrewCmd} (h : c.ofSession = false) : stageAfter u st c = st := by
  cases c <;> first
    | rfl
    | cases h

theorem stage_others {u : Nat} {st : Stage} {l : List BrewCmd} (h : ∀ c ∈ l, c.ofSession = false) : l.foldl (stageAfter u) st = st := by
  induction l generalizing st with
  | nil => rfl
  | cons c l ih =>
    rw [List.foldl_cons, stageAfter_other (h c (by simp))]
    exact ih fun x hx => h x (by simp [hx])

/-- Events without influence on local sessions. -/
theorem fwd_other (s : Ent) (e : EntEv) (h1 : ∀ a b c d f, e ≠ .granted a b c d f) (h2 : ∀ a b, e ≠ .released a b)
    (h3 : ∀ a b, e ≠ .ended a b) (h4 : ∀ a b, e ≠ .ulVoice a b) :
    (s.step e).1.fwd = s.fwd ∧ ∀ c ∈ cmdsOf (s.step e).2, c.ofSession = false := by
  cases e with
  | clock t => exact ⟨rfl, by simp [Ent.step, cmdsOf]⟩
  | event b r n j =>
    cases b with
    | connected =>
      refine ⟨rfl, ?_⟩
      have key : ∀ m : List (Nat × List Nat), ∀ c ∈ cmdsOf (m.flatMap fun e => if issiRoutable s.cfg e.1 then
          EntOut.cmd (.register e.1) :: (if e.2.isEmpty then [] else [.cmd (.affiliate e.1 e.2)]) else []), c.ofSession = false := by
        intro m
        induction m with
        | nil => simp [cmdsOf]
        | cons e m ih =>
          intro c hc
          rw [List.flatMap_cons, cmdsOf_append, List.mem_append] at hc
          rcases hc with hc | hc
          · split at hc
            · split at hc <;> simp [cmdsOf] at hc
              · subst hc; rfl
              · rcases hc with rfl | rfl <;> rfl
            · simp [cmdsOf] at hc
          · exact ih c hc
      exact key s.subs
    | disconnected =>
      simp only [Ent.step, Ent.event, Ent.linkDown]
      exact ⟨trivial, by rw [cmdsOf_callEnds]; simp⟩
    | groupCallStart u source gssi p service =>
      simp only [Ent.step, Ent.event, Ent.callStart]
      split
      · split <;> exact ⟨rfl, by simp [cmdsOf]⟩
      · exact ⟨rfl, by simp [cmdsOf]⟩
    | groupCallEnd u cause =>
      simp only [Ent.step, Ent.event, Ent.callEnd]
      split <;> exact ⟨rfl, by simp [cmdsOf]⟩
    | voice u bits data =>
      simp only [Ent.step, Ent.event, Ent.voice]
      split
      · exact ⟨rfl, by simp [cmdsOf]⟩
      · split
        · exact ⟨rfl, by simp [cmdsOf]⟩
        · split <;> exact ⟨rfl, by simp [cmdsOf]⟩
    | sds u source dest data bits =>
      simp only [Ent.step, Ent.event, Ent.sdsIn]
      refine ⟨trivial, ?_⟩
      split <;> simp [cmdsOf, BrewCmd.ofSession]
    | _ => exact ⟨rfl, by simp [Ent.step, Ent.event, cmdsOf]⟩
  | playout j =>
    have key : ∀ t (l : List (Nat × NetCall)) (jit : Assoc Nat Jitter), cmdsOf (playLoop t j jit l).2 = [] := by
      intro t l
      induction l with
      | nil => intro jit; rfl
      | cons x l ih =>
        intro jit
        obtain ⟨u, c⟩ := x
        unfold playLoop
        split
        · exact ih _
        · split
          · exact ih _
          · split
            · exact ih _
            · simp only
              split
              · rw [cmdsOf_append, ih]; rfl
              · exact ih _
    simp only [Ent.step, Ent.playout]
    split
    · exact ⟨rfl, by simp [cmdsOf]⟩
    · exact ⟨rfl, by rw [key]; simp⟩
  | expire now => exact ⟨rfl, by simp [Ent.step, cmdsOf]⟩
  | granted id source gssi ts fresh => exact absurd rfl (h1 _ _ _ _ _)
  | released id ts => exact absurd rfl (h2 _ _)
  | ended id ts => exact absurd rfl (h3 _ _)
  | netEnd u =>
    simp only [Ent.step, Ent.dropCall]
    split
    · exact ⟨rfl, by simp [cmdsOf]⟩
    · split <;> exact ⟨rfl, by simp [cmdsOf]⟩
  | netReady u id ts usage =>
    simp only [Ent.step, Ent.ready]
    split <;> exact ⟨rfl, by simp [cmdsOf]⟩
  | update u =>
    cases u with
    | register n => simp only [Ent.step, Ent.update]; exact ⟨trivial, by split <;> simp [cmdsOf, BrewCmd.ofSession]⟩
    | deregister n =>
      simp only [Ent.step, Ent.update]
      refine ⟨trivial, ?_⟩
      split
      · split <;> simp [cmdsOf, BrewCmd.ofSession]
      · simp [cmdsOf]
    | affiliate n gs => simp only [Ent.step, Ent.update]; exact ⟨trivial, by split <;> simp [cmdsOf, BrewCmd.ofSession]⟩
    | deaffiliate n gs =>
      simp only [Ent.step, Ent.update]
      split
      · refine ⟨rfl, ?_⟩
        simp only
        split <;> simp [cmdsOf, BrewCmd.ofSession]
      · exact ⟨rfl, by simp [cmdsOf]⟩
  | ulVoice ts bits => exact absurd rfl (h4 _ _)
  | sds source dest data fresh =>
    simp only [Ent.step, Ent.sdsOut]
    refine ⟨trivial, ?_⟩
    split <;> simp [cmdsOf, BrewCmd.ofSession]

theorem carries_snoc {cfg : Cfg} {h : EntHist} {x : EntEv × List EntOut} {ts : Nat} {f : Fwd} :
    Carries cfg (h ++ [x]) ts f ↔
      (Accepts cfg h ts x.1 ∧ (∃ fresh, x.1 = .granted f.callId f.source f.gssi ts fresh) ∧
        x.2 = [.cmd (.groupTx f.uuid f.source f.gssi 0 0)]) ∨
      (Carries cfg h ts f ∧ ¬ Ends ts x.1 ∧ ¬ Accepts cfg h ts x.1) := by
  constructor
  · rintro ⟨pre, fresh, out, post, heq, h1, h2, h3, h4⟩
    rcases List.eq_nil_or_concat post with rfl | ⟨post', y, rfl⟩
    · left
      obtain ⟨a, b⟩ := List.append_inj' heq rfl
      have b : x = (.granted f.callId f.source f.gssi ts fresh, out) := by simpa using b
      subst a b
      exact ⟨⟨rfl, h1, h2⟩, ⟨fresh, rfl⟩, h3⟩
    · right
      rw [List.concat_eq_append, ← List.cons_append, ← List.append_assoc] at heq
      obtain ⟨a, b⟩ := List.append_inj' heq rfl
      have b : x = y := by simpa using b
      subst b
      rw [List.concat_eq_append] at h4
      refine ⟨⟨pre, fresh, out, post', a, h1, h2, h3, ?_⟩, ?_⟩
      · intro p1 z p2 hz
        exact h4 p1 z (p2 ++ [x]) (by rw [hz]; simp)
      · have := h4 post' x [] rfl
        rw [a]; exact this
  · rintro (⟨ha, ⟨fresh, hx⟩, ho⟩ | ⟨⟨pre, fresh, out, post, rfl, h1, h2, h3, h4⟩, h5, h6⟩)
    · obtain ⟨e, out⟩ := x
      simp only at hx ho ha
      subst hx
      refine ⟨h, fresh, out, [], rfl, ha.2.1, ha.2.2, ho, ?_⟩
      intro p1 z p2 hz
      simp at hz
    · refine ⟨pre, fresh, out, post ++ [x], by simp, h1, h2, h3, ?_⟩
      intro p1 z p2 hz
      rcases List.eq_nil_or_concat p2 with rfl | ⟨p2', y, rfl⟩
      · obtain ⟨a, b⟩ := List.append_inj' hz rfl
        have b : x = z := by simpa using b
        subst a b
        exact ⟨h5, h6⟩
      · rw [List.concat_eq_append, ← List.cons_append, ← List.append_assoc] at hz
        obtain ⟨a, b⟩ := List.append_inj' hz rfl
        exact h4 p1 z p2' a

/-- The table of sessions is what the history says. -/
theorem fwd_carries {cfg : Cfg} {latency : Nat} {h : EntHist} {s : Ent} (hr : EntRun cfg latency h s) (ts : Nat) (f : Fwd) :
    s.fwd.get ts = some f ↔ Carries cfg h ts f := by
  induction hr generalizing ts f with
  | init =>
    constructor
    · intro h; simp [Ent.init] at h
    · rintro ⟨pre, _, _, _, heq, _⟩; simp at heq
  | reorder _ _ _ _ ih => exact ih ts f
  | @step h s e hr ih =>
    obtain ⟨hcfg, hup⟩ := ent_cfg_connected hr
    rw [carries_snoc, ← ih]
    by_cases hg : ∃ a b c d g, e = .granted a b c d g
    · obtain ⟨id, source, gssi, ts', fresh, rfl⟩ := hg
      by_cases hacc : linkUp h = true ∧ issiRoutable cfg source = true
      · have hstep : ∃ u, s.step (.granted id source gssi ts' fresh) =
            ({ s with fwd := s.fwd.insert ts' ⟨u, id, source, gssi⟩ }, [.cmd (.groupTx u source gssi 0 0)]) := by
          simp only [Ent.step, Ent.localStart, hup, hcfg, hacc.1, hacc.2, Bool.not_true, Bool.false_eq_true, if_false]
          split
          · exact ⟨_, rfl⟩
          · exact ⟨_, rfl⟩
        obtain ⟨u, hstep⟩ := hstep
        rw [hstep]
        simp only [Assoc.get_insert, Accepts, Ends, not_false_eq_true, true_and]
        by_cases hts : ts' = ts
        · subst hts
          rw [if_pos rfl]
          constructor
          · intro hf
            cases hf
            exact .inl ⟨⟨rfl, hacc⟩, ⟨fresh, rfl⟩, rfl⟩
          · rintro (⟨_, ⟨fr, h1⟩, h2⟩ | ⟨_, h1⟩)
            · simp only [EntEv.granted.injEq] at h1
              simp only [List.cons.injEq, EntOut.cmd.injEq, BrewCmd.groupTx.injEq, and_true] at h2
              obtain ⟨uu, ii, ss, gg⟩ := f
              simp only at h1 h2
              obtain ⟨rfl, rfl, rfl, -, -⟩ := h1
              rw [h2.1]
            · exact absurd ⟨rfl, hacc⟩ h1
        · rw [if_neg hts]
          constructor
          · intro hf; exact .inr ⟨hf, fun h1 => hts h1.1⟩
          · rintro (⟨h1, _⟩ | ⟨h1, _⟩)
            · exact absurd h1.1 hts
            · exact h1
      · have hstep : s.step (.granted id source gssi ts' fresh) = (s, []) := by
          simp only [Ent.step, Ent.localStart, hup, hcfg]
          cases h1 : linkUp h
          · rfl
          · cases h2 : issiRoutable cfg source
            · rfl
            · exact absurd ⟨h1, h2⟩ hacc
        rw [hstep]
        constructor
        · intro hf
          exact .inr ⟨hf, fun h => h.elim, fun h => hacc h.2⟩
        · rintro (⟨h1, _⟩ | ⟨h1, _⟩)
          · exact absurd h1.2 hacc
          · exact h1
    · by_cases hre : (∃ a b, e = .released a b) ∨ ∃ a b, e = .ended a b
      · have hstep : ∃ ts', Ends ts' e ∧ (∀ t, Ends t e → t = ts') ∧ (∀ a b c d g, e ≠ .granted a b c d g) ∧
            ∀ k, (s.step e).1.fwd.get k = if ts' = k then none else s.fwd.get k := by
          rcases hre with ⟨a, b, rfl⟩ | ⟨a, b, rfl⟩
          · refine ⟨b, rfl, fun t ht => Eq.symm ht, by simp, ?_⟩
            intro k
            simp only [Ent.step, Ent.localStop]
            split
            · exact Assoc.get_erase _ _ _
            · rename_i hn
              split
              · rename_i e; rw [← e]; exact hn
              · rfl
          · exact ⟨b, rfl, fun t ht => Eq.symm ht, by simp, fun k => Assoc.get_erase _ _ _⟩
        obtain ⟨ts', h1, h2, h3, h4⟩ := hstep
        rw [h4]
        have hna : ¬ Accepts cfg h ts e := by
          cases e with
          | granted a b c d g => exact absurd rfl (h3 a b c d g)
          | _ => exact id
        by_cases hts : ts' = ts
        · subst hts
          rw [if_pos rfl]
          constructor
          · intro h; cases h
          · rintro (⟨h, _⟩ | ⟨_, h, _⟩)
            · exact absurd h hna
            · exact absurd h1 h
        · rw [if_neg hts]
          constructor
          · intro hf; exact .inr ⟨hf, fun h => hts (h2 ts h).symm, hna⟩
          · rintro (⟨h, _⟩ | ⟨h, _⟩)
            · exact absurd h hna
            · exact h
      · have hna : ¬ Accepts cfg h ts e := by
          cases e with
          | granted a b c d g => exact absurd ⟨a, b, c, d, g, rfl⟩ hg
          | _ => exact id
        have hne : ¬ Ends ts e := by
          cases e with
          | released a b => exact absurd (.inl ⟨a, b, rfl⟩) hre
          | ended a b => exact absurd (.inr ⟨a, b, rfl⟩) hre
          | _ => exact id
        have hf : (s.step e).1.fwd = s.fwd := by
          by_cases hv : ∃ a b, e = .ulVoice a b
          · obtain ⟨a, b, rfl⟩ := hv; rfl
          · exact (fwd_other s e (fun a b c d f h => hg ⟨a, b, c, d, f, h⟩) (fun a b h => hre (.inl ⟨a, b, h⟩))
              (fun a b h => hre (.inr ⟨a, b, h⟩)) (fun a b h => hv ⟨a, b, h⟩)).1
        rw [hf]
        constructor
        · intro h; exact .inr ⟨h, hne, hna⟩
        · rintro (⟨h, _⟩ | ⟨h, _⟩)
          · exact absurd h hna
          · exact h

/-! ## Voice blocks -/

theorem byte_bits : ∀ a b c d e f g h : Fin 2, ∀ i : Fin 8,
    (0 + a.val * 2 ^ 7 + b.val * 2 ^ 6 + c.val * 2 ^ 5 + d.val * 2 ^ 4 + e.val * 2 ^ 3 + f.val * 2 ^ 2 + g.val * 2 ^ 1 + h.val * 2 ^ 0
      : Nat).testBit (7 - i.val) = ([a, b, c, d, e, f, g, h].getD i.val 0 == 1) := by decide +kernel

/-- Bit `k` of the block as it is packed. -/
def packBit (block : List Nat) (k : Nat) : Nat := if k < 274 then block.getD k 0 % 2 else 0

theorem packBit_lt (block : List Nat) (k : Nat) : packBit block k < 2 := by
  unfold packBit
  split <;> omega

theorem packByte_eq (block : List Nat) (n : Nat) : packByte block n =
    0 + packBit block (n * 8 + 0) * 2 ^ 7 + packBit block (n * 8 + 1) * 2 ^ 6 + packBit block (n * 8 + 2) * 2 ^ 5 +
      packBit block (n * 8 + 3) * 2 ^ 4 + packBit block (n * 8 + 4) * 2 ^ 3 + packBit block (n * 8 + 5) * 2 ^ 2 +
      packBit block (n * 8 + 6) * 2 ^ 1 + packBit block (n * 8 + 7) * 2 ^ 0 := by
  have step : ∀ b i, (if n * 8 + i < 274 then b + block.getD (n * 8 + i) 0 % 2 * 2 ^ (7 - i) else b) =
      b + packBit block (n * 8 + i) * 2 ^ (7 - i) := by
    intro b i
    unfold packBit
    split <;> simp
  unfold packByte
  simp only [step]
  rfl

theorem packByte_bit (block : List Nat) (n i : Nat) (hi : i < 8) :
    (packByte block n).testBit (7 - i) = true ↔ packBit block (n * 8 + i) = 1 := by
  rw [packByte_eq]
  have := byte_bits ⟨_, packBit_lt block (n * 8 + 0)⟩ ⟨_, packBit_lt block (n * 8 + 1)⟩ ⟨_, packBit_lt block (n * 8 + 2)⟩
    ⟨_, packBit_lt block (n * 8 + 3)⟩ ⟨_, packBit_lt block (n * 8 + 4)⟩ ⟨_, packBit_lt block (n * 8 + 5)⟩
    ⟨_, packBit_lt block (n * 8 + 6)⟩ ⟨_, packBit_lt block (n * 8 + 7)⟩ ⟨i, hi⟩
  simp only at this
  rw [this]
  match i, hi with
  | 0, _ => simp [Fin.ext_iff]
  | 1, _ => simp [Fin.ext_iff]
  | 2, _ => simp [Fin.ext_iff]
  | 3, _ => simp [Fin.ext_iff]
  | 4, _ => simp [Fin.ext_iff]
  | 5, _ => simp [Fin.ext_iff]
  | 6, _ => simp [Fin.ext_iff]
  | 7, _ => simp [Fin.ext_iff]

theorem packByte_lt (block : List Nat) (n : Nat) : packByte block n < 256 := by
  rw [packByte_eq]
  have h := fun k => packBit_lt block k
  have h0 := h (n * 8 + 0); have h1 := h (n * 8 + 1); have h2 := h (n * 8 + 2); have h3 := h (n * 8 + 3)
  have h4 := h (n * 8 + 4); have h5 := h (n * 8 + 5); have h6 := h (n * 8 + 6); have h7 := h (n * 8 + 7)
  omega

theorem getD_lt (l : List Nat) (n : Nat) (h : n < l.length) : l.getD n 0 = l[n] := by
  rw [List.getD, List.getElem?_eq_getElem h, Option.getD_some]

/-- The block the entity makes is the one the network expects, and there is only one. -/
theorem ste_iff (block out : List Nat) : toSte block = some out ↔ Ste block out := by
  unfold toSte Ste
  by_cases h36 : block.length = 36
  · simp only [h36, if_true, Option.some.injEq]
    constructor
    · intro h; exact .inl ⟨trivial, h.symm⟩
    · rintro (⟨_, h⟩ | ⟨h, _⟩ | ⟨h, _⟩)
      · exact h.symm
      · omega
      · omega
  · rw [if_neg h36]
    by_cases h35 : block.length = 35
    · simp only [h35, if_true, Option.some.injEq]
      constructor
      · intro h; exact .inr (.inl ⟨trivial, h.symm⟩)
      · rintro (⟨h, _⟩ | ⟨_, h⟩ | ⟨h, _⟩)
        · omega
        · exact h.symm
        · omega
    · rw [if_neg h35]
      by_cases hlt : block.length < 274
      · rw [if_pos hlt]
        constructor
        · intro h; cases h
        · rintro (⟨h, _⟩ | ⟨h, _⟩ | ⟨h, _⟩) <;> omega
      · rw [if_neg hlt]
        have hbit : ∀ k, k < 280 → (((List.range 35).map (packByte block)).getD (k / 8) 0).testBit (7 - k % 8) =
            decide (k < 274 ∧ block.getD k 0 % 2 = 1) := by
          intro k hk
          have : ((List.range 35).map (packByte block)).getD (k / 8) 0 = packByte block (k / 8) := by
            rw [getD_lt _ _ (by simp; omega)]
            simp
          rw [this]
          apply Bool.eq_iff_iff.mpr
          rw [packByte_bit _ _ _ (by omega)]
          have e : k / 8 * 8 + k % 8 = k := by omega
          rw [e]
          simp only [packBit, decide_eq_true_eq]
          split
          · rename_i h; simp [h]
          · rename_i h; simp [h]
        constructor
        · intro h
          cases h
          refine .inr (.inr ⟨by omega, _, rfl, by simp, ?_, ?_⟩)
          · intro b hb
            obtain ⟨n, _, rfl⟩ := List.mem_map.mp hb
            exact packByte_lt _ _
          · intro k hk
            rw [hbit k hk, decide_eq_true_eq]
        · rintro (⟨h, _⟩ | ⟨h, _⟩ | ⟨_, bytes, rfl, hlen, hsm, hbits⟩)
          · omega
          · omega
          · simp only [Option.some.injEq, List.cons.injEq, true_and]
            apply List.ext_getElem
            · simp [hlen]
            · intro n hn1 hn2
              rw [List.length_map, List.length_range] at hn1
              apply Nat.eq_of_testBit_eq
              intro j
              by_cases hj : j < 8
              · have hk : n * 8 + (7 - j) < 280 := by omega
                have a := hbit _ hk
                have b := hbits _ hk
                have e1 : (n * 8 + (7 - j)) / 8 = n := by omega
                have e2 : 7 - (n * 8 + (7 - j)) % 8 = j := by omega
                rw [e1, e2] at a b
                rw [getD_lt _ _ (by simp; omega)] at a
                rw [getD_lt _ _ hn2] at b
                rw [a]
                apply Bool.eq_iff_iff.mpr
                rw [decide_eq_true_eq, b]
              · have small : ∀ b, b < 256 → b.testBit j = false := by
                  intro b hb
                  apply Nat.testBit_lt_two_pow
                  calc b < 2 ^ 8 := hb
                    _ ≤ 2 ^ j := Nat.pow_le_pow_right (by omega) (by omega)
                rw [small _ (by simp only [List.getElem_map]; exact packByte_lt _ _), small _ (hsm _ (List.getElem_mem _))]

/-! ## Sessions -/

theorem entCmds_snoc (h : EntHist) (x : EntEv × List EntOut) : entCmds (h ++ [x]) = entCmds h ++ cmdsOf x.2 := by
  simp [entCmds, List.flatMap_append]

theorem stage_snoc (u : Nat) (h : EntHist) (x : EntEv × List EntOut) :
    stage u (h ++ [x]) = (cmdsOf x.2).foldl (stageAfter u) (stage u h) := by
  rw [stage, entCmds_snoc, List.foldl_append]; rfl

theorem drawn_snoc (h : EntHist) (x : EntEv × List EntOut) : drawn (h ++ [x]) = drawn h ++ (match x.1 with
    | .granted _ _ _ _ fresh => [fresh]
    | _ => []) := by
  obtain ⟨e, o⟩ := x
  rw [drawn, List.filterMap_append]
  cases e <;> rfl

/-- What holds of sessions. -/
structure SessInv (h : EntHist) (s : Ent) : Prop where
  good : ∀ u, stage u h ≠ .bad
  fresh : ∀ u, u ∉ drawn h → stage u h = .before
  live : ∀ ts f, s.fwd.get ts = some f → stage f.uuid h = .open f.source f.gssi ∧ f.uuid ∈ drawn h
  own : ∀ ts ts' f f', s.fwd.get ts = some f → s.fwd.get ts' = some f' → f.uuid = f'.uuid → ts = ts'

theorem sessInv_run {cfg : Cfg} {latency : Nat} {h : EntHist} {s : Ent} (hr : EntRun cfg latency h s) (hd : (drawn h).Nodup) :
    SessInv h s := by
  induction hr with
  | init => refine ⟨by simp [stage, entCmds], fun _ _ => rfl, ?_, ?_⟩ <;> simp [Ent.init]
  | reorder _ _ _ _ ih => exact ⟨(ih hd).good, (ih hd).fresh, (ih hd).live, (ih hd).own⟩
  | @step h s e hr ih =>
    rw [drawn_snoc] at hd
    have inv := ih (List.nodup_append.mp hd).1
    by_cases hg : ∃ a b c d g, e = .granted a b c d g
    · obtain ⟨id, source, gssi, ts', fresh, rfl⟩ := hg
      have hnew : fresh ∉ drawn h := by
        intro hm
        exact (List.nodup_append.mp hd).2.2 fresh hm fresh (by simp) rfl
      have hcases : s.step (.granted id source gssi ts' fresh) = (s, []) ∨
          ∃ u, s.step (.granted id source gssi ts' fresh) =
            ({ s with fwd := s.fwd.insert ts' ⟨u, id, source, gssi⟩ }, [.cmd (.groupTx u source gssi 0 0)]) ∧
            ((∃ f, s.fwd.get ts' = some f ∧ f.uuid = u) ∨ (u = fresh ∧ s.fwd.get ts' = none)) := by
        simp only [Ent.step, Ent.localStart]
        split
        · exact .inl rfl
        · split
          · exact .inl rfl
          · right
            split
            · rename_i f hf
              exact ⟨f.uuid, rfl, .inl ⟨f, hf, rfl⟩⟩
            · rename_i hf
              exact ⟨fresh, rfl, .inr ⟨rfl, hf⟩⟩
      rcases hcases with hstep | ⟨u, hstep, hu⟩
      · rw [hstep]
        refine ⟨?_, ?_, ?_, inv.own⟩
        · intro v; rw [stage_snoc]; exact inv.good v
        · intro v hv
          rw [stage_snoc]
          rw [drawn_snoc] at hv
          exact inv.fresh v (fun hm => hv (List.mem_append_left _ hm))
        · intro ts f hf
          rw [stage_snoc, drawn_snoc]
          exact ⟨(inv.live ts f hf).1, List.mem_append_left _ (inv.live ts f hf).2⟩
      · rw [hstep]
        have hst : ∀ v, stage v (h ++ [(.granted id source gssi ts' fresh, [.cmd (.groupTx u source gssi 0 0)])]) =
            if u = v then .open source gssi else stage v h := by
          intro v
          rw [stage_snoc]
          simp only [cmdsOf, List.filterMap_cons, List.filterMap_nil, List.foldl_cons, List.foldl_nil, stageAfter]
          by_cases huv : u = v
          · subst huv
            rw [if_pos rfl, if_pos rfl]
            rcases hu with ⟨f, hf, rfl⟩ | ⟨rfl, _⟩
            · rw [(inv.live _ f hf).1]
            · rw [inv.fresh _ hnew]
          · rw [if_neg huv, if_neg huv]
        have hud : u ∈ drawn h ++ [fresh] := by
          rcases hu with ⟨f, hf, rfl⟩ | ⟨rfl, _⟩
          · exact List.mem_append_left _ (inv.live _ f hf).2
          · simp
        have hown : ∀ ts f, s.fwd.get ts = some f → f.uuid = u → ts = ts' := by
          intro ts f hf he
          rcases hu with ⟨f', hf', rfl⟩ | ⟨rfl, _⟩
          · exact inv.own ts ts' f f' hf hf' he
          · exact absurd (he ▸ (inv.live ts f hf).2) hnew
        refine ⟨?_, ?_, ?_, ?_⟩
        · intro v
          rw [hst]
          split
          · simp
          · exact inv.good v
        · intro v hv
          rw [drawn_snoc] at hv
          rw [hst]
          split
          · rename_i e; subst e; exact absurd hud hv
          · exact inv.fresh v (fun hm => hv (List.mem_append_left _ hm))
        · intro ts f hf
          rw [hst, drawn_snoc]
          simp only [Assoc.get_insert] at hf
          split at hf
          · cases hf
            rw [if_pos rfl]
            exact ⟨rfl, hud⟩
          · rename_i hne
            have : ¬ u = f.uuid := fun e => hne (hown ts f hf e.symm).symm
            rw [if_neg this]
            exact ⟨(inv.live ts f hf).1, List.mem_append_left _ (inv.live ts f hf).2⟩
        · intro ts1 ts2 f1 f2 hf1 hf2 he
          simp only [Assoc.get_insert] at hf1 hf2
          split at hf1
          · cases hf1
            split at hf2
            · rename_i a b; rw [← a, ← b]
            · rename_i a b; exact absurd (hown ts2 f2 hf2 he.symm).symm b
          · split at hf2
            · cases hf2
              rename_i a b; exact absurd (hown ts1 f1 hf1 he).symm a
            · exact inv.own ts1 ts2 f1 f2 hf1 hf2 he
    · have hdr : drawn (h ++ [(e, (s.step e).2)]) = drawn h := by
        rw [drawn_snoc]
        cases e with
        | granted a b c d g => exact absurd ⟨a, b, c, d, g, rfl⟩ hg
        | _ => simp
      by_cases hrel : ∃ a b, e = .released a b
      · obtain ⟨id, ts', rfl⟩ := hrel
        cases hf0 : s.fwd.get ts' with
        | none =>
          have hstep : s.step (.released id ts') = (s, []) := by simp only [Ent.step, Ent.localStop, hf0]
          rw [hstep] at hdr ⊢
          refine ⟨?_, ?_, ?_, inv.own⟩
          · intro v; rw [stage_snoc]; exact inv.good v
          · intro v hv; rw [stage_snoc]; rw [hdr] at hv; exact inv.fresh v hv
          · intro ts f hf; rw [stage_snoc, hdr]; exact inv.live ts f hf
        | some f0 =>
          have hstep : s.step (.released id ts') = ({ s with fwd := s.fwd.erase ts' }, [.cmd (.groupIdle f0.uuid 0)]) := by
            simp only [Ent.step, Ent.localStop, hf0]
          rw [hstep] at hdr ⊢
          have hst : ∀ v, stage v (h ++ [(.released id ts', [.cmd (.groupIdle f0.uuid 0)])]) =
              if f0.uuid = v then .closed else stage v h := by
            intro v
            rw [stage_snoc]
            simp only [cmdsOf, List.filterMap_cons, List.filterMap_nil, List.foldl_cons, List.foldl_nil, stageAfter]
            by_cases huv : f0.uuid = v
            · subst huv
              rw [if_pos rfl, if_pos rfl, (inv.live _ f0 hf0).1]
            · rw [if_neg huv, if_neg huv]
          refine ⟨?_, ?_, ?_, ?_⟩
          · intro v
            rw [hst]
            split
            · simp
            · exact inv.good v
          · intro v hv
            rw [hdr] at hv
            rw [hst]
            split
            · rename_i e; subst e; exact absurd (inv.live _ f0 hf0).2 hv
            · exact inv.fresh v hv
          · intro ts f hf
            simp only [Assoc.get_erase] at hf
            split at hf
            · cases hf
            · rename_i hne
              rw [hst, hdr]
              have : ¬ f0.uuid = f.uuid := fun e => hne (inv.own ts' ts f0 f hf0 hf e)
              rw [if_neg this]
              exact inv.live ts f hf
          · intro ts1 ts2 f1 f2 hf1 hf2 he
            simp only [Assoc.get_erase] at hf1 hf2
            split at hf1
            · cases hf1
            · split at hf2
              · cases hf2
              · exact inv.own ts1 ts2 f1 f2 hf1 hf2 he
      · by_cases hend : ∃ a b, e = .ended a b
        · obtain ⟨id, ts', rfl⟩ := hend
          refine ⟨?_, ?_, ?_, ?_⟩
          · intro v; rw [stage_snoc]; exact inv.good v
          · intro v hv; rw [stage_snoc]; rw [hdr] at hv; exact inv.fresh v hv
          · intro ts f hf
            rw [stage_snoc, hdr]
            simp only [Ent.step, Ent.localEnd, Assoc.get_erase] at hf
            split at hf
            · cases hf
            · exact inv.live ts f hf
          · intro ts1 ts2 f1 f2 hf1 hf2 he
            simp only [Ent.step, Ent.localEnd, Assoc.get_erase] at hf1 hf2
            split at hf1
            · cases hf1
            · split at hf2
              · cases hf2
              · exact inv.own ts1 ts2 f1 f2 hf1 hf2 he
        · have key : (s.step e).1.fwd = s.fwd ∧ ∀ v, stage v (h ++ [(e, (s.step e).2)]) = stage v h := by
            by_cases hv : ∃ a b, e = .ulVoice a b
            · obtain ⟨ts', bits, rfl⟩ := hv
              refine ⟨rfl, ?_⟩
              intro v
              rw [stage_snoc]
              simp only [Ent.step, Ent.ulVoice]
              split
              · rfl
              · rename_i f hf
                split
                · rfl
                · simp only [cmdsOf, List.filterMap_cons, List.filterMap_nil, List.foldl_cons, List.foldl_nil, stageAfter]
                  split
                  · rename_i hu
                    subst hu
                    rw [(inv.live _ f hf).1]
                  · rfl
            · have := fwd_other s e (fun a b c d f h => hg ⟨a, b, c, d, f, h⟩) (fun a b h => hrel ⟨a, b, h⟩)
                (fun a b h => hend ⟨a, b, h⟩) (fun a b h => hv ⟨a, b, h⟩)
              exact ⟨this.1, fun v => by rw [stage_snoc]; exact stage_others this.2⟩
          refine ⟨?_, ?_, ?_, ?_⟩
          · intro v; rw [key.2]; exact inv.good v
          · intro v hv; rw [key.2]; rw [hdr] at hv; exact inv.fresh v hv
          · intro ts f hf; rw [key.2, hdr]; rw [key.1] at hf; exact inv.live ts f hf
          · intro ts1 ts2 f1 f2 hf1 hf2 he
            rw [key.1] at hf1 hf2
            exact inv.own ts1 ts2 f1 f2 hf1 hf2 he

/-! ## The property -/

/-- C61: of the voice received from mobiles the network gets exactly the blocks of supported length in timeslots which carry a
session: in the network's format, under the session's UUID, with their length. -/
theorem c61_voice {cfg : Cfg} {latency : Nat} {h : EntHist} {s : Ent} (hr : EntRun cfg latency h s) (ts : Nat) (block : List Nat)
    (o : EntOut) :
    o ∈ (s.step (.ulVoice ts block)).2 ↔
      ∃ f d, Carries cfg h ts f ∧ Ste block d ∧ o = .cmd (.voice f.uuid (8 * d.length) d) := by
  have hlen : ∀ d, toSte block = some d → d.length * 8 % 2 ^ 16 = 8 * d.length := by
    intro d hd
    have : d.length = 36 := by
      rcases (ste_iff _ _).mp hd with ⟨h, rfl⟩ | ⟨h, rfl⟩ | ⟨_, b, rfl, h, _⟩
      · exact h
      · simp [h]
      · simp [h]
    rw [this]
  simp only [Ent.step, Ent.ulVoice]
  constructor
  · intro ho
    split at ho
    · cases ho
    · rename_i f hf
      split at ho
      · cases ho
      · rename_i d hd
        rw [List.mem_singleton] at ho
        rw [hlen d hd] at ho
        exact ⟨f, d, (fwd_carries hr ts f).mp hf, (ste_iff _ _).mp hd, ho⟩
  · rintro ⟨f, d, hf, hd, rfl⟩
    rw [(fwd_carries hr ts f).mpr hf, (ste_iff _ _).mpr hd]
    simp only [hlen d ((ste_iff _ _).mpr hd), List.mem_singleton]

/-- C61: no other event sends voice to the network. -/
theorem c61_only_voice {cfg : Cfg} {latency : Nat} {h : EntHist} {s : Ent} (_hr : EntRun cfg latency h s) (e : EntEv) (u n : Nat)
    (d : List Nat) (hm : .cmd (.voice u n d) ∈ (s.step e).2) : ∃ ts block, e = .ulVoice ts block := by
  have hc : BrewCmd.voice u n d ∈ cmdsOf (s.step e).2 := List.mem_filterMap.mpr ⟨_, hm, rfl⟩
  by_cases hv : ∃ a b, e = .ulVoice a b
  · exact hv
  · exfalso
    cases e with
    | granted a b c k g =>
      simp only [Ent.step, Ent.localStart] at hm
      split at hm
      · cases hm
      · split at hm
        · cases hm
        · split at hm <;> simp at hm
    | released a b =>
      simp only [Ent.step, Ent.localStop] at hm
      split at hm <;> simp at hm
    | ended a b => simp [Ent.step] at hm
    | ulVoice a b => exact hv ⟨a, b, rfl⟩
    | _ => exact absurd ((fwd_other s _ (by simp) (by simp) (by simp) (by simp)).2 _ hc) (by simp [BrewCmd.ofSession])

/-- C61: the floor is announced to the network exactly for grants to stations whose calls go there, while there is a
connection, with the station and its group. -/
theorem c61_announced {cfg : Cfg} {latency : Nat} {h : EntHist} {s : Ent} (hr : EntRun cfg latency h s) (e : EntEv)
    (source gssi : Nat) :
    (∃ u p v, .cmd (.groupTx u source gssi p v) ∈ (s.step e).2) ↔
      ∃ id ts fresh, e = .granted id source gssi ts fresh ∧ linkUp h = true ∧ issiRoutable cfg source = true := by
  obtain ⟨hcfg, hup⟩ := ent_cfg_connected hr
  constructor
  · rintro ⟨u, p, v, hm⟩
    have hc : BrewCmd.groupTx u source gssi p v ∈ cmdsOf (s.step e).2 := List.mem_filterMap.mpr ⟨_, hm, rfl⟩
    cases e with
    | granted a b c k g =>
      simp only [Ent.step, Ent.localStart, hcfg, hup] at hm
      split at hm
      · cases hm
      · rename_i h1
        split at hm
        · cases hm
        · rename_i h2
          have h1 : linkUp h = true := by simpa using h1
          have h2 : issiRoutable cfg b = true := by simpa using h2
          split at hm
          · simp only [List.mem_singleton, EntOut.cmd.injEq, BrewCmd.groupTx.injEq] at hm
            obtain ⟨-, rfl, rfl, -, -⟩ := hm
            exact ⟨a, k, g, rfl, h1, h2⟩
          · simp only [List.mem_singleton, EntOut.cmd.injEq, BrewCmd.groupTx.injEq] at hm
            obtain ⟨-, rfl, rfl, -, -⟩ := hm
            exact ⟨a, k, g, rfl, h1, h2⟩
    | released a b =>
      simp only [Ent.step, Ent.localStop] at hm
      split at hm <;> simp at hm
    | ended a b => simp [Ent.step] at hm
    | ulVoice a b =>
      simp only [Ent.step, Ent.ulVoice] at hm
      split at hm
      · cases hm
      · split at hm <;> simp at hm
    | _ => exact absurd ((fwd_other s _ (by simp) (by simp) (by simp) (by simp)).2 _ hc) (by simp [BrewCmd.ofSession])
  · rintro ⟨id, ts, fresh, rfl, h1, h2⟩
    simp only [Ent.step, Ent.localStart, hcfg, hup, h1, h2, Bool.not_true, Bool.false_eq_true, if_false]
    split
    · exact ⟨_, _, _, List.mem_singleton.mpr rfl⟩
    · exact ⟨_, _, _, List.mem_singleton.mpr rfl⟩

/-- C61: if the UUIDs drawn are different, every session is well-formed: GROUP_TX, then voice and further GROUP_TX, then at most
one GROUP_IDLE and nothing more. The session a timeslot carries is open for the station and the group the floor was granted
to. -/
theorem c61_sessions {cfg : Cfg} {latency : Nat} {h : EntHist} {s : Ent} (hr : EntRun cfg latency h s) (hd : (drawn h).Nodup) :
    (∀ u, stage u h ≠ .bad) ∧ ∀ ts f, Carries cfg h ts f → stage f.uuid h = .open f.source f.gssi :=
  ⟨(sessInv_run hr hd).good, fun ts f hf => ((sessInv_run hr hd).live ts f ((fwd_carries hr ts f).mpr hf)).1⟩

/-- C61: when the floor is released, the session is closed. -/
theorem c61_released {cfg : Cfg} {latency : Nat} {h : EntHist} {s : Ent} (hr : EntRun cfg latency h s) (hd : (drawn h).Nodup)
    (id ts : Nat) (f : Fwd) (hf : Carries cfg h ts f) :
    stage f.uuid (h ++ [(.released id ts, (s.step (.released id ts)).2)]) = .closed := by
  have hg := (fwd_carries hr ts f).mpr hf
  have hstep : s.step (.released id ts) = ({ s with fwd := s.fwd.erase ts }, [.cmd (.groupIdle f.uuid 0)]) := by
    simp only [Ent.step, Ent.localStop, hg]
  rw [hstep, stage_snoc, (c61_sessions hr hd).2 ts f hf]
  simp [cmdsOf, stageAfter]

/-! ## A history -/

/-- The state after events. -/
def entRun (s : Ent) : List EntEv → EntHist × Ent
  | [] => ([], s)
  | e :: es => let r := entRun (s.step e).1 es; ((e, (s.step e).2) :: r.1, r.2)

theorem entRun_run {cfg : Cfg} {latency : Nat} {h : EntHist} {s : Ent} (hr : EntRun cfg latency h s) (es : List EntEv) :
    EntRun cfg latency (h ++ (entRun s es).1) (entRun s es).2 := by
  induction es generalizing h s with
  | nil => simpa [entRun] using hr
  | cons e es ih =>
    have := ih (EntRun.step e hr)
    simpa [entRun] using this

/-- Sessions of the network go over the network. -/
def cfgAll : Cfg := ⟨some ⟨"example", none, true⟩, []⟩

/-- Station 1000001 and then station 1000002 speak in group 91 on timeslot 2; a voice block of 36 bytes is passed on for each;
then the floor is released. -/
def talkEvents : List EntEv :=
  [.event .connected (fun _ => false) 0 0, .granted 4 1000001 91 2 77, .ulVoice 2 (List.replicate 36 5),
   .granted 4 1000002 91 2 78, .ulVoice 2 (List.replicate 36 6), .ulVoice 3 (List.replicate 36 7), .released 4 2]

theorem c61_example :
    (entCmds (entRun (.init cfgAll 4) talkEvents).1).map (fun
      | .voice u n d => (u, n, d.take 1)
      | .groupTx u a g _ _ => (u, a, [g])
      | .groupIdle u _ => (u, 0, [])
      | _ => (0, 0, [])) =
      [(77, 1000001, [91]), (77, 288, [5]), (77, 1000002, [91]), (77, 288, [6]), (77, 0, [])] ∧
    (drawn (entRun (.init cfgAll 4) talkEvents).1).Nodup := by decide +kernel

example : ∃ (h : EntHist) (s : Ent) (f : Fwd), EntRun cfgAll 4 h s ∧ (drawn h).Nodup ∧ Carries cfgAll h 2 f ∧
    (s.step (.ulVoice 2 (List.replicate 36 5))).2 ≠ [] := by
  have hr := entRun_run (EntRun.init (cfg := cfgAll) (latency := 4)) (talkEvents.take 5)
  have hf : (entRun (.init cfgAll 4) (talkEvents.take 5)).2.fwd.get 2 = some ⟨77, 4, 1000002, 91⟩ := by decide +kernel
  exact ⟨_, _, _, hr, by decide +kernel, (fwd_carries hr 2 _).mp hf, by decide +kernel⟩

end Verif.Brew
