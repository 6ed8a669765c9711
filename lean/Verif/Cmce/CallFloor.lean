import Verif.Cmce.CallViews
/-!
# What the messages of call control say about the floor: specification and lemmas
-/
namespace Verif.Cmce
open Tdma

/-! ## Specification -/

/-- Who may talk in a call: a speaker, or nobody since some time. -/
inductive Floor where
  | talking (speaker : Nat)
  | free (since : Time)
  deriving DecidableEq, Repr

/-- What a listener knows of a call: when it was first announced, and the floor. -/
structure Known where
  since : Time
  floor : Floor
  deriving DecidableEq, Repr

/-- What a listener learns from a message to a group sent at time `now`: the first D-SETUP of a call names its speaker,
D-TX GRANTED the next one, D-TX CEASED frees the floor and D-RELEASE ends the call. -/
def knownAfter (now : Time) (t : Nat → Option Known) : CcOut → Nat → Option Known
  | .dSetup (.group _) id _ caller _ => fun j =>
    if j = id then some (match t j with
      | none => ⟨now, .talking caller⟩
      | some k => k)
    else t j
  | .dTxGranted (.group _) id _ speaker _ => fun j => if j = id then (t j).map fun k => { k with floor := .talking speaker } else t j
  | .dTxCeased (.group _) id _ => fun j => if j = id then (t j).map fun k => { k with floor := .free now } else t j
  | .dRelease (.group _) id _ => fun j => if j = id then none else t j
  | _ => t

/-- The time of an event: that of the last tick. -/
def CcEv.time (now : Time) : CcEv → Time
  | .tick n => n
  | _ => now

/-- The time and what a listener knows after a history. -/
def known (h : List (CcEv × List CcOut)) : Time × (Nat → Option Known) :=
  h.foldl (fun a x => (x.1.time a.1, x.2.foldl (knownAfter (x.1.time a.1)) a.2)) (Time.default, fun _ => none)

/-! ## Messages and state -/

def Call.floor (c : Call) : Floor :=
  match c.hang with
  | none => .talking c.speaker
  | some t => .free t

/-- The listener knows the truth. -/
def Knows (s : Cc) (t : Nat → Option Known) : Prop :=
  ∀ id, (s.calls.get id = none → t id = none) ∧
    ∀ c, s.calls.get id = some c → ∃ i k, s.mgr.dl i = some k ∧ c.ts = i.val + 1 ∧ k.callId = id ∧ t id = some ⟨k.tsCreated, c.floor⟩

theorem known_snoc (h : List (CcEv × List CcOut)) (e : CcEv) (o : List CcOut) :
    known (h ++ [(e, o)]) = (e.time (known h).1, o.foldl (knownAfter (e.time (known h).1)) (known h).2) := by
  simp [known, List.foldl_append]

theorem aside_known {o : CcOut} (h : o.Aside) (now : Time) (t : Nat → Option Known) : knownAfter now t o = t := by
  cases o <;> simp only [CcOut.Aside] at h <;> try rfl
  rename_i to id c
  cases to <;> simp at h <;> rfl

theorem start_fresh {s : Cc} {l : List CcOut} {k : CmceCircuit} {c : Call}
    (ho : (∃ caller, c.origin = .ms caller) ∨ (∃ u, c.origin = .net u))
    (hn : NoReuse (l ++ startOut s.routable k c)) (hc : ∀ id, connected l id = (s.calls.get id).isSome) :
    s.calls.get k.callId = none := by
  have : connected l k.callId = false := by
    rcases ho with ⟨caller, ho⟩ | ⟨u, ho⟩
    · have := hn (l ++ [.open k.mac, .dCallProceeding (.station caller) k.callId]) ((.dSetup (.group c.gssi) k.callId .grantedToOther caller (k.usage, k.ts)) ::
          (if s.routable c.gssi then [.netGranted k.callId caller c.gssi k.ts] else []))
        (.station caller) k.callId .granted true (some (k.usage, k.ts)) (by simp [startOut, ho])
      rw [connected_append] at this
      exact this
    · have := hn (l ++ [.open k.mac, .dSetup (.group c.gssi) k.callId .grantedToOther c.speaker (k.usage, k.ts)]) [.netReady u k.callId k.ts k.usage]
        (.group c.gssi) k.callId .grantedToOther false none (by simp [startOut, ho])
      rw [connected_append] at this
      exact this
  rw [hc] at this
  cases e : s.calls.get k.callId with
  | none => rfl
  | some x => rw [e] at this; cases this

theorem Prim.now {m : Bool} {s s' : Cc} {o : List CcOut} (h : Prim s m o s') : s'.now = s.now ∧ s'.mgr.dltime = s.mgr.dltime := by
  cases h <;> exact ⟨rfl, rfl⟩

theorem Prims.now {m : Bool} {s s' : Cc} {o : List CcOut} (h : Prims m s o s') : s'.now = s.now ∧ s'.mgr.dltime = s.mgr.dltime := by
  induction h with
  | nil => exact ⟨rfl, rfl⟩
  | cons hp _ ih => exact ⟨ih.1.trans hp.now.1, ih.2.trans hp.now.2⟩

/-- A call changes, but not its place. -/
theorem Knows.change {s s' : Cc} {t : Nat → Option Known} (h : Knows s t) {id : Nat} {c c' : Call} (hc : s.calls.get id = some c)
    (hts : c'.ts = c.ts) (h1 : s'.calls = s.calls.insert id c') (h2 : s'.mgr = s.mgr) {f : Floor} (hf : c'.floor = f) :
    Knows s' (fun j => if j = id then (t j).map (fun k => { k with floor := f }) else t j) := by
  intro j
  rw [h1, h2, Assoc.get_insert]
  by_cases e : id = j
  · subst e
    simp only [if_true]
    refine ⟨fun h => (nomatch h), ?_⟩
    intro d hd
    cases hd
    obtain ⟨i, k, a1, a2, a3, a4⟩ := (h id).2 c hc
    exact ⟨i, k, a1, hts.trans a2, a3, by rw [a4, Option.map_some, hf]⟩
  · rw [if_neg e]
    simp only [if_neg (Ne.symm e)]
    exact h j

/-- A call disappears together with a circuit of its number. -/
theorem Knows.remove {s s' : Cc} {t : Nat → Option Known} (h : Knows s t) {i : Fin 4} {k : CmceCircuit} (hk : s.mgr.dl i = some k)
    (h1 : s'.calls = s.calls.erase k.callId) (h2 : s'.mgr = s.mgr.closed i) {t' : Nat → Option Known}
    (ht : ∀ j, t' j = if j = k.callId then none else t j) : Knows s' t' := by
  intro j
  rw [h1, h2, Assoc.get_erase, ht]
  by_cases e : k.callId = j
  · subst e
    simp
  · rw [if_neg e, if_neg (Ne.symm e)]
    refine ⟨(h j).1, ?_⟩
    intro c hc
    obtain ⟨i', k', a1, a2, a3, a4⟩ := (h j).2 c hc
    refine ⟨i', k', ?_, a2, a3, a4⟩
    simp only [Mgr.closed]
    rw [Slots.upd_ne, a1]
    rintro rfl
    rw [hk] at a1; cases a1
    exact e a3

theorem known_prim {m : Bool} {s s' : Cc} {o l : List CcOut} (hi : CcInv s) (hp : Prim s m o s') (hn : NoReuse (l ++ o))
    (hc : ∀ id, connected l id = (s.calls.get id).isSome) {t : Nat → Option Known} (ht : Knows s t)
    (hnow : s.mgr.dltime = s.now ∨ started o = []) : Knows s' (o.foldl (knownAfter s.now) t) := by
  cases hp with
  | aside o ha => simp only [List.foldl_cons, List.foldl_nil, aside_known ha]; exact ht
  | members => exact ht
  | start a i comm k c p ha hi0 hn0 hk hli hts hu htx hh ho hp =>
    have ho' : (∃ caller, c.origin = .ms caller) ∨ (∃ u, c.origin = .net u) := by
      rcases ho with ⟨x, h, _⟩ | ⟨x, h, _⟩
      · exact .inl ⟨x, h⟩
      · exact .inr ⟨x, h⟩
    have hfree := start_fresh ho' hn hc
    have hd : s.mgr.dltime = s.now := by
      rcases hnow with h | h
      · exact h
      · rcases ho' with ⟨x, h'⟩ | ⟨x, h'⟩ <;> simp [startOut, h', started] at h
    have hfold : (startOut s.routable k c).foldl (knownAfter s.now) t = fun j => if j = k.callId then some ⟨s.now, .talking c.speaker⟩ else t j := by
      funext j
      have hnone := (ht k.callId).1 hfree
      rcases ho with ⟨caller, ho, hs, _⟩ | ⟨u, ho, _⟩
      · simp only [startOut, ho]
        split <;> simp only [List.foldl_append, List.foldl_cons, List.foldl_nil, knownAfter] <;> split <;> simp_all
      · simp only [startOut, ho, List.foldl_cons, List.foldl_nil, knownAfter]
        split <;> simp_all
    rw [hfold]
    intro j
    simp only [Assoc.get_insert]
    by_cases e : k.callId = j
    · subst e
      rw [if_pos rfl, if_pos rfl]
      refine ⟨fun h => (nomatch h), ?_⟩
      intro d hd'
      cases hd'
      refine ⟨i, k, ?_, hts, rfl, ?_⟩
      · simp [Mgr.opened]
      · simp only [Call.floor, hh]
        rw [hk, hd]
    · rw [if_neg e, if_neg (Ne.symm e)]
      refine ⟨(ht j).1, ?_⟩
      intro d hd'
      obtain ⟨i', k', a1, a2, a3, a4⟩ := (ht j).2 d hd'
      refine ⟨i', k', ?_, a2, a3, a4⟩
      simp only [Mgr.opened]
      rw [Slots.upd_ne, a1]
      rintro rfl
      rw [hn0] at a1; cases a1
  | stop j c i cause hc0 hts =>
    obtain ⟨k, h1, h2, h3⟩ := hi.circuit_at hc0 hts
    subst h2
    apply ht.remove h1 rfl rfl
    intro j
    have : ∀ (l : List CcOut) (t : Nat → Option Known), (l = [] ∨ ∃ a b, l = [.netEnded a b]) → l.foldl (knownAfter s.now) t = t := by
      rintro l t (rfl | ⟨a, b, rfl⟩) <;> rfl
    simp only [endOut, List.foldl_append, List.foldl_cons, List.foldl_nil, knownAfter]
    rw [this]
    split
    · split
      · exact .inr ⟨_, _, rfl⟩
      · exact .inl rfl
    · exact .inl rfl
  | expire i k hk ha =>
    apply ht.remove hk rfl rfl
    intro j
    cases hc0 : s.calls.get k.callId with
    | none =>
      simp only [hi.noSetup _ hc0, List.nil_append, List.foldl_cons, List.foldl_nil, knownAfter]
      split
      · rename_i e; subst e; exact (ht _).1 hc0
      · rfl
    | some c =>
      obtain ⟨p, hp, hpid, _⟩ := hi.setup _ c hc0
      simp only [hp, List.foldl_append, List.foldl_cons, List.foldl_nil, knownAfter, hpid]
  | cease j c brew net hc0 htx hb =>
    have : ∀ (l : List CcOut) (t : Nat → Option Known), (l = [] ∨ ∃ a b, l = [.netReleased a b]) → l.foldl (knownAfter s.now) t = t := by
      rintro l t (rfl | ⟨a, b, rfl⟩) <;> rfl
    simp only [List.foldl_append, List.foldl_cons, List.foldl_nil, knownAfter]
    rw [this]
    · refine ht.change (c' := { c with tx := false, hang := some s.now, brew := brew }) hc0 rfl ?_ ?_ rfl <;> rfl
    rcases hb with ⟨_, rfl⟩ | ⟨_, rfl⟩
    · split
      · exact .inr ⟨_, _, rfl⟩
      · exact .inl rfl
    · exact .inl rfl
  | grant j c ssi hc0 htx =>
    have : ∀ (l : List CcOut) (t : Nat → Option Known), (l = [] ∨ ∃ a b d e, l = [.netGranted a b d e]) → l.foldl (knownAfter s.now) t = t := by
      rintro l t (rfl | ⟨a, b, d, e, rfl⟩) <;> rfl
    simp only [List.foldl_append, List.foldl_cons, List.foldl_nil, knownAfter]
    rw [this]
    · refine ht.change (c' := { c with tx := true, hang := none, speaker := ssi, origin := c.origin.demanded ssi }) hc0 rfl ?_ ?_ rfl <;> rfl
    split
    · exact .inr ⟨_, _, _, _, rfl⟩
    · exact .inl rfl
  | netGrant j c u sp hc0 htx =>
    simp only [List.foldl_cons, List.foldl_nil, knownAfter]
    refine ht.change (c' := { c with speaker := sp, tx := true, hang := none, brew := some u, origin := c.origin.speak u }) hc0 rfl ?_ ?_ rfl <;> rfl
  | announce i k c p hk hc0 htx hp =>
    simp only [List.foldl_cons, List.foldl_nil, knownAfter]
    intro j
    have := ht j
    by_cases e : j = k.callId
    · subst e
      simp only [if_true]
      refine ⟨fun h => ?_, ?_⟩
      · rw [hc0] at h; cases h
      · intro d hd
        obtain ⟨i', k', a1, a2, a3, a4⟩ := this.2 d hd
        exact ⟨i', k', a1, a2, a3, by rw [a4]⟩
    · simp only [if_neg e]; exact this

theorem known_prims {m : Bool} {s s' : Cc} {o : List CcOut} (hp : Prims m s o s') {l : List CcOut} (hi : CcInv s) (hn : NoReuse (l ++ o))
    (hc : ∀ id, connected l id = (s.calls.get id).isSome) {t : Nat → Option Known} (ht : Knows s t)
    (hnow : s.mgr.dltime = s.now ∨ started o = []) :
    (∀ id, connected (l ++ o) id = (s'.calls.get id).isSome) ∧ Knows s' (o.foldl (knownAfter s.now) t) := by
  induction hp generalizing l t with
  | nil => rw [List.append_nil]; exact ⟨hc, ht⟩
  | @cons s s1 s2 o1 o2 hp hps ih =>
    rw [List.foldl_append, ← List.append_assoc]
    rw [← List.append_assoc] at hn
    have hn1 : s1.now = s.now ∧ s1.mgr.dltime = s.mgr.dltime := hp.now
    rw [← hn1.1]
    have hs : s.mgr.dltime = s.now ∨ started o1 = [] ∧ started o2 = [] := by
      rcases hnow with h | h
      · exact .inl h
      · rw [started_append, List.append_eq_nil_iff] at h; exact .inr h
    apply ih (hi.prim hp) hn
    · intro id
      rw [connected_append]
      exact connected_prim hi hp hc id
    · rw [hn1.1]
      exact known_prim hi hp hn.left hc ht (hs.imp_right And.left)
    · rw [hn1.1, hn1.2]
      exact hs.imp_right And.right

theorem ccRun_connected {r : Nat → Bool} {h : List (CcEv × List CcOut)} {s : Cc} (hr : CcRun r h s) :
    ∀ id, connected (messages h) id = (s.calls.get id).isSome := by
  refine run_induct (P := fun l s => ∀ id, connected l id = (s.calls.get id).isSome) (fun _ => rfl) ?_ ?_ ?_ ?_ hr
  · intro l s now h; exact h
  · intro l s now h; exact h
  · intro l s o s' hi h hp id
    rw [connected_append]
    exact connected_prim hi hp h id
  · rintro l s s' hi h ⟨calls', f, hp, hf, rfl⟩ id
    rw [h]
    simp only [get_perm hp hi.ok]

/-- In every history without reuse of numbers the messages tell the time and the floor. -/
theorem ccRun_known {r : Nat → Bool} {h : List (CcEv × List CcOut)} {s : Cc} (hr : CcRun r h s) :
    (known h).1 = s.now ∧ s.mgr.dltime = s.now ∧ (NoReuse (messages h) → Knows s (known h).2) := by
  induction hr with
  | init =>
    refine ⟨rfl, rfl, fun _ id => ⟨fun _ => rfl, ?_⟩⟩
    intro c hc; cases hc
  | @step h s s' e o hr hs ih =>
    have hi := ccRun_inv hr
    obtain ⟨i1, i2, i3⟩ := ih
    have hm : messages (h ++ [(e, o)]) = messages h ++ o := by simp [messages]
    rw [hm, known_snoc]
    have hc := ccRun_connected hr
    cases (step_ok hi hs).2 with
    | @tick now o1 o2 s1 _ hst p1 p2 =>
      have n1 := p1.now
      have n2 := p2.now
      refine ⟨?_, ?_, ?_⟩
      · rw [n2.1]; simp only [Cc.mgrClock, n1.1, Cc.clock]; rfl
      · rw [n2.1, n2.2]; simp only [Cc.mgrClock, n1.1, Cc.clock]
      · intro hn
        rw [← List.append_assoc] at hn
        obtain ⟨k1, k2⟩ := known_prims p1 (l := messages h) (hi.clock now) hn.left hc (t := (known h).2) (i3 hn.left.left) (.inr hst)
        obtain ⟨_, k3⟩ := known_prims p2 (l := messages h ++ o1) (((hi.clock now).prims p1).mgrClock now) hn k1 k2
          (.inl (by simp only [Cc.mgrClock, n1.1, Cc.clock]))
        dsimp only
        rw [List.foldl_append]
        have e1 : (s1.mgrClock now).now = now := n1.1
        rw [e1] at k3
        exact k3
    | update p =>
      have n := p.now
      have et : ∀ u, CcEv.time (known h).1 (.update u) = s.now := fun _ => i1
      rw [et]
      refine ⟨n.1.symm, by rw [n.1, n.2, i2], ?_⟩
      intro hn
      exact (known_prims p hi hn hc (i3 hn.left) (.inl i2)).2
    | other hne _ p =>
      have n := p.now
      have et : e.time (known h).1 = s.now := by
        cases e with
        | tick now => exact absurd rfl (hne now)
        | _ => exact i1
      rw [et]
      refine ⟨n.1.symm, by rw [n.1, n.2, i2], ?_⟩
      intro hn
      exact (known_prims p hi hn hc (i3 hn.left) (.inl i2)).2
  | reorder hr hreo ih =>
    have hi := ccRun_inv hr
    obtain ⟨calls', f, hp, hf, rfl⟩ := hreo
    refine ⟨ih.1, ih.2.1, fun hn => ?_⟩
    intro id
    simp only [get_perm hp hi.ok]
    exact ih.2.2 hn id

theorem ccRun_view {r : Nat → Bool} {h : List (CcEv × List CcOut)} {s : Cc} (hr : CcRun r h s) (hn : NoReuse (messages h)) :
    s.NoLeak ∧ heard (messages h) = s.view := by
  have key : (∀ id, connected (messages h) id = (s.calls.get id).isSome) ∧ (NoReuse (messages h) → s.NoLeak ∧ heard (messages h) = s.view) := by
    refine run_induct (P := fun l s => (∀ id, connected l id = (s.calls.get id).isSome) ∧ (NoReuse l → s.NoLeak ∧ heard l = s.view))
      ⟨fun _ => rfl, fun _ => ⟨noLeak_init r, rfl⟩⟩ ?_ ?_ ?_ ?_ hr
    · intro l s now h; exact h
    · intro l s now h; exact h
    · intro l s o s' hi h hp
      refine ⟨?_, ?_⟩
      · intro id
        rw [connected_append]
        exact connected_prim hi hp h.1 id
      · intro hn
        obtain ⟨h1, h2⟩ := h.2 hn.left
        exact view_prim hi hp hn h.1 h1 h2
    · rintro l s s' hi h ⟨calls', f, hp, hf, rfl⟩
      refine ⟨fun id => by rw [h.1]; simp only [get_perm hp hi.ok], ?_⟩
      intro hn
      obtain ⟨h1, h2⟩ := h.2 hn
      refine ⟨?_, ?_⟩
      · intro i k hk
        obtain ⟨c, a, b⟩ := h1 i k hk
        exact ⟨c, by simp only [get_perm hp hi.ok]; exact a, b⟩
      · rw [h2]
        funext id
        simp only [Cc.view, get_perm hp hi.ok]
  exact key.2 hn

theorem ccRun_routable {r : Nat → Bool} {h : List (CcEv × List CcOut)} {s : Cc} (hr : CcRun r h s) : s.routable = r := by
  refine run_induct (P := fun _ s => s.routable = r) rfl ?_ ?_ ?_ ?_ hr
  · intro l s now h; exact h
  · intro l s now h; exact h
  · intro l s o s' hi h hp; rw [hp.routable, h]
  · rintro l s s' hi h ⟨calls', f, hp, hf, rfl⟩; exact h

end Verif.Cmce
