import Verif.Cmce.CallEvents
/-!
# What the messages of call control say about its calls: specification and lemmas

Everybody outside knows calls only from the messages sent. The functions here read a list of messages, without any
knowledge of call control.
-/
namespace Verif.Cmce
open Tdma

/-! ## Specification -/

/-- Call numbers in use: from D-CONNECT until D-RELEASE to the group. -/
def connectedAfter (t : Nat → Bool) : CcOut → Nat → Bool
  | .dConnect _ id _ _ _ => fun j => if j = id then true else t j
  | .dRelease (.group _) id _ => fun j => if j = id then false else t j
  | _ => t
def connected (l : List CcOut) : Nat → Bool := l.foldl connectedAfter fun _ => false

/-- Group, usage marker and timeslot of a call: as in the last D-SETUP. -/
def heardAfter (t : Nat → Option (Nat × Nat × Nat)) : CcOut → Nat → Option (Nat × Nat × Nat)
  | .dSetup (.group g) id _ _ (u, ts) => fun j => if j = id then some (g, u, ts) else t j
  | .dRelease (.group _) id _ => fun j => if j = id then none else t j
  | _ => t
def heard (l : List CcOut) : Nat → Option (Nat × Nat × Nat) := l.foldl heardAfter fun _ => none

/-- No call number is given to a new call while another call has it. -/
def NoReuse (l : List CcOut) : Prop :=
  ∀ l1 l2 to id g o ch, l = l1 ++ .dConnect to id g o ch :: l2 → connected l1 id = false

/-! ## Messages and state -/

theorem connected_append (a b : List CcOut) : connected (a ++ b) = b.foldl connectedAfter (connected a) := List.foldl_append
theorem heard_append (a b : List CcOut) : heard (a ++ b) = b.foldl heardAfter (heard a) := List.foldl_append

theorem NoReuse.left {a b : List CcOut} (h : NoReuse (a ++ b)) : NoReuse a := by
  intro l1 l2 to id g o ch e
  exact h l1 (l2 ++ b) to id g o ch (by rw [e]; simp)

/-- The call table as seen from outside. -/
def Cc.view (s : Cc) (id : Nat) : Option (Nat × Nat × Nat) := (s.calls.get id).map fun c => (c.gssi, c.usage, c.ts)

theorem Prim.routable {m : Bool} {s s' : Cc} {o : List CcOut} (h : Prim s m o s') : s'.routable = s.routable := by cases h <;> rfl

theorem aside_connected {o : CcOut} (h : o.Aside) (t : Nat → Bool) : connectedAfter t o = t := by
  cases o <;> simp only [CcOut.Aside] at h <;> try rfl
  rename_i to id c
  cases to <;> simp at h <;> rfl

theorem aside_heard {o : CcOut} (h : o.Aside) (t : Nat → Option (Nat × Nat × Nat)) : heardAfter t o = t := by
  cases o <;> simp only [CcOut.Aside] at h <;> try rfl
  rename_i to id c
  cases to <;> simp at h <;> rfl

/-- The numbers in use according to the messages are those in the table. -/
theorem connected_prim {m : Bool} {s s' : Cc} {o : List CcOut} (hi : CcInv s) (hp : Prim s m o s') {t : Nat → Bool}
    (ht : ∀ id, t id = (s.calls.get id).isSome) (id : Nat) : o.foldl connectedAfter t id = (s'.calls.get id).isSome := by
  cases hp with
  | aside o ha => simp only [List.foldl_cons, List.foldl_nil, aside_connected ha]; exact ht id
  | members => exact ht id
  | start a i comm k c p ha hi0 hn hk hl hts hu htx hh ho hp =>
    simp only [Assoc.get_insert]
    rcases ho with ⟨caller, ho, _⟩ | ⟨u, ho, _⟩
    · simp only [startOut, ho]
      split <;> simp only [List.foldl_append, List.foldl_cons, List.foldl_nil, connectedAfter, ht, eq_comm (a := id)] <;> split <;> rfl
    · simp only [startOut, ho, List.foldl_cons, List.foldl_nil, connectedAfter, ht, eq_comm (a := id)]
      split <;> rfl
  | stop j c i cause hc hts =>
    simp only [Assoc.get_erase]
    simp only [endOut, List.foldl_append, List.foldl_cons, List.foldl_nil, connectedAfter]
    have : ∀ (l : List CcOut) (t : Nat → Bool), (l = [] ∨ ∃ a b, l = [.netEnded a b]) → l.foldl connectedAfter t = t := by
      rintro l t (rfl | ⟨a, b, rfl⟩) <;> rfl
    rw [this]
    · simp only [ht, eq_comm (a := id)]; split <;> rfl
    · split
      · split
        · exact .inr ⟨_, _, rfl⟩
        · exact .inl rfl
      · exact .inl rfl
  | expire i k hk ha =>
    simp only [Assoc.get_erase]
    cases hc : s.calls.get k.callId with
    | none =>
      simp only [hi.noSetup _ hc, List.nil_append, List.foldl_cons, List.foldl_nil, connectedAfter, ht]
      split
      · rename_i e; rw [← e, hc]
      · rfl
    | some c =>
      obtain ⟨p, hp, hpid, _⟩ := hi.setup _ c hc
      simp only [hp, List.foldl_append, List.foldl_cons, List.foldl_nil, connectedAfter, ht, hpid, eq_comm (a := id)]
      split <;> rfl
  | cease j c brew net hc htx hb =>
    have : ∀ (l : List CcOut) (t : Nat → Bool), (l = [] ∨ ∃ a b, l = [.netReleased a b]) → l.foldl connectedAfter t = t := by
      rintro l t (rfl | ⟨a, b, rfl⟩) <;> rfl
    simp only [List.foldl_append, List.foldl_cons, List.foldl_nil, connectedAfter]
    rw [this]
    · rw [ht, Assoc.get_insert]
      split
      · rename_i e; subst e; rw [hc]; rfl
      · rfl
    · rcases hb with ⟨_, rfl⟩ | ⟨_, rfl⟩
      · split
        · exact .inr ⟨_, _, rfl⟩
        · exact .inl rfl
      · exact .inl rfl
  | grant j c ssi hc htx =>
    have : ∀ (l : List CcOut) (t : Nat → Bool), (l = [] ∨ ∃ a b d e, l = [.netGranted a b d e]) → l.foldl connectedAfter t = t := by
      rintro l t (rfl | ⟨a, b, d, e, rfl⟩) <;> rfl
    simp only [List.foldl_append, List.foldl_cons, List.foldl_nil, connectedAfter]
    rw [this]
    · rw [ht, Assoc.get_insert]
      split
      · rename_i e; subst e; rw [hc]; rfl
      · rfl
    · split
      · exact .inr ⟨_, _, _, _, rfl⟩
      · exact .inl rfl
  | netGrant j c u sp hc htx =>
    simp only [List.foldl_cons, List.foldl_nil, connectedAfter]
    rw [ht, Assoc.get_insert]
    split
    · rename_i e; subst e; rw [hc]; rfl
    · rfl
  | announce i k c p hk hc htx hp =>
    simp only [List.foldl_cons, List.foldl_nil, connectedAfter]
    exact ht id

/-- With fresh numbers, a step does not leak a circuit, and the messages tell the truth. -/
theorem view_prim {m : Bool} {s s' : Cc} {o l : List CcOut} (hi : CcInv s) (hp : Prim s m o s') (hn : NoReuse (l ++ o))
    (hc : ∀ id, connected l id = (s.calls.get id).isSome) (hl : s.NoLeak) (hv : heard l = s.view) :
    s'.NoLeak ∧ heard (l ++ o) = s'.view := by
  have hclose : ∀ i k, s.mgr.dl i = some k → ∀ s' : Cc, s'.mgr = s.mgr.closed i → s'.calls = s.calls.erase k.callId → s'.NoLeak := by
    intro i k hk s' h1 h2 j x hx
    rw [h1] at hx
    simp only [Mgr.closed, Slots.upd_apply] at hx
    split at hx
    · cases hx
    · rename_i hne
      obtain ⟨c, a, b⟩ := hl j x hx
      refine ⟨c, ?_, b⟩
      rw [h2, Assoc.get_erase, if_neg]
      · exact a
      · intro e
        obtain ⟨c', a', b'⟩ := hl i k hk
        rw [e, a] at a'; cases a'
        exact hne (Fin.ext (by omega))
  have hchange : ∀ id (c c' : Call), s.calls.get id = some c → c'.ts = c.ts → ∀ s' : Cc, s'.mgr = s.mgr → s'.calls = s.calls.insert id c' → s'.NoLeak := by
    intro id c c' h0 hts s' h1 h2 j x hx
    rw [h1] at hx
    obtain ⟨d, a, b⟩ := hl j x hx
    rw [h2, Assoc.get_insert]
    by_cases e : id = x.callId
    · rw [if_pos e]; subst e; rw [h0] at a; cases a; exact ⟨c', rfl, by rw [hts, b]⟩
    · rw [if_neg e]; exact ⟨d, a, b⟩
  have hvc : ∀ id (c c' : Call), s.calls.get id = some c → ∀ s' : Cc, s'.calls = s.calls.insert id c' → c'.ts = c.ts → c'.usage = c.usage → c'.gssi = c.gssi → s'.view = s.view := by
    intro id c c' h0 s' h2 e1 e2 e3
    funext j
    simp only [Cc.view, h2, Assoc.get_insert]
    split
    · rename_i e; subst e; rw [h0]; simp [e1, e2, e3]
    · rfl
  rw [heard_append, hv]
  cases hp with
  | aside o ha => exact ⟨hl, by simp only [List.foldl_cons, List.foldl_nil, aside_heard ha]⟩
  | members => exact ⟨hl, rfl⟩
  | start a i comm k c p ha hi0 hn0 hk hli hts hu htx hh ho hp =>
    have hkts : k.ts = i.val + 1 := by rw [hk]
    have hfree : s.calls.get k.callId = none := by
      have : connected l k.callId = false := by
        rcases ho with ⟨caller, ho, _⟩ | ⟨u, ho, _⟩
        · have := hn (l ++ [.open k.mac, .dCallProceeding (.station caller) k.callId]) ((.dSetup (.group c.gssi) k.callId .grantedToOther caller (k.usage, k.ts)) ::
              (if s.routable c.gssi then [.netGranted k.callId caller c.gssi k.ts] else []))
            (.station caller) k.callId .granted true (some (k.usage, k.ts)) (by simp [startOut, ho])
          rw [connected_append] at this
          exact this
        · have := hn (l ++ [.open k.mac, .dSetup (.group c.gssi) k.callId .grantedToOther c.speaker (k.usage, k.ts)]) [.netReady u k.callId k.ts k.usage]
            (.group c.gssi) k.callId .grantedToOther false none (by simp [startOut, ho])
          rw [connected_append] at this
          exact this
      rw [hc] at this
      cases e : s.calls.get k.callId with
      | none => rfl
      | some x => rw [e] at this; cases this
    refine ⟨?_, ?_⟩
    · intro j x hx
      simp only [Mgr.opened, Slots.upd_apply] at hx
      simp only [Assoc.get_insert]
      split at hx
      · rename_i e; subst e; cases hx; exact ⟨c, by simp, hts⟩
      · obtain ⟨d, a1, b⟩ := hl j x hx
        refine ⟨d, ?_, b⟩
        rw [if_neg]
        · exact a1
        · intro e; rw [← e, hfree] at a1; cases a1
    · funext j
      simp only [Cc.view, Assoc.get_insert, eq_comm (b := j)]
      rcases ho with ⟨caller, ho, _⟩ | ⟨u, ho, _⟩
      · simp only [startOut, ho]
        split <;> simp only [List.foldl_append, List.foldl_cons, List.foldl_nil, heardAfter] <;> split <;> simp_all [Cc.view]
      · simp only [startOut, ho, List.foldl_cons, List.foldl_nil, heardAfter]
        split <;> simp_all [Cc.view]
  | stop j c i cause hc0 hts =>
    obtain ⟨k, h1, h2, h3⟩ := hi.circuit_at hc0 hts
    subst h2
    refine ⟨hclose i k h1 _ rfl rfl, ?_⟩
    funext j
    have : ∀ (l : List CcOut) (t : Nat → Option (Nat × Nat × Nat)), (l = [] ∨ ∃ a b, l = [.netEnded a b]) → l.foldl heardAfter t = t := by
      rintro l t (rfl | ⟨a, b, rfl⟩) <;> rfl
    simp only [endOut, List.foldl_append, List.foldl_cons, List.foldl_nil, heardAfter]
    rw [this]
    · simp only [Cc.view, Assoc.get_erase, eq_comm (a := j)]; split <;> rfl
    · split
      · split
        · exact .inr ⟨_, _, rfl⟩
        · exact .inl rfl
      · exact .inl rfl
  | expire i k hk ha =>
    refine ⟨hclose i k hk _ rfl rfl, ?_⟩
    obtain ⟨c, hc0, _⟩ := hl i k hk
    obtain ⟨p, hp, hpid, _⟩ := hi.setup _ c hc0
    funext j
    simp only [hp, List.foldl_append, List.foldl_cons, List.foldl_nil, heardAfter, hpid, Cc.view, Assoc.get_erase, eq_comm (a := j)]
    split <;> rfl
  | cease j c brew net hc0 htx hb =>
    refine ⟨hchange j c _ hc0 (by rfl) _ rfl rfl, ?_⟩
    refine Eq.trans ?_ (hvc j c { c with tx := false, hang := some s.now, brew := brew } hc0 _ rfl rfl rfl rfl).symm
    have : ∀ (l : List CcOut) (t : Nat → Option (Nat × Nat × Nat)), (l = [] ∨ ∃ a b, l = [.netReleased a b]) → l.foldl heardAfter t = t := by
      rintro l t (rfl | ⟨a, b, rfl⟩) <;> rfl
    simp only [List.foldl_append, List.foldl_cons, List.foldl_nil, heardAfter]
    rw [this]
    rcases hb with ⟨_, rfl⟩ | ⟨_, rfl⟩
    · split
      · exact .inr ⟨_, _, rfl⟩
      · exact .inl rfl
    · exact .inl rfl
  | grant j c ssi hc0 htx =>
    refine ⟨hchange j c _ hc0 (by rfl) _ rfl rfl, ?_⟩
    refine Eq.trans ?_ (hvc j c { c with tx := true, hang := none, speaker := ssi, origin := c.origin.demanded ssi } hc0 _ rfl rfl rfl rfl).symm
    have : ∀ (l : List CcOut) (t : Nat → Option (Nat × Nat × Nat)), (l = [] ∨ ∃ a b d e, l = [.netGranted a b d e]) → l.foldl heardAfter t = t := by
      rintro l t (rfl | ⟨a, b, d, e, rfl⟩) <;> rfl
    simp only [List.foldl_append, List.foldl_cons, List.foldl_nil, heardAfter]
    rw [this]
    split
    · exact .inr ⟨_, _, _, _, rfl⟩
    · exact .inl rfl
  | netGrant j c u sp hc0 htx =>
    refine ⟨hchange j c _ hc0 (by rfl) _ rfl rfl, ?_⟩
    refine Eq.trans ?_ (hvc j c { c with speaker := sp, tx := true, hang := none, brew := some u, origin := c.origin.speak u } hc0 _ rfl rfl rfl rfl).symm
    rfl
  | announce i k c p hk hc0 htx hp =>
    refine ⟨hl, ?_⟩
    funext j
    simp only [List.foldl_cons, List.foldl_nil, heardAfter]
    split
    · rename_i e; subst e
      obtain ⟨d, a, b⟩ := hl i k hk
      rw [hc0] at a; cases a
      obtain ⟨k', h1, h2, h3⟩ := hi.circuit_at hc0 b
      rw [hk] at h1; cases h1
      simp only [Cc.view, hc0, Option.map_some, h3, hi.mgr.ts hk, b]
    · rfl

/-! ## Numbers -/

theorem started_prim {m : Bool} {s s' : Cc} {o : List CcOut} (hp : Prim s m o s') :
    (started o = [] ∧ s'.mgr.nextCallId = s.mgr.nextCallId) ∨
    (started o = [s.mgr.nextCallId] ∧ s'.mgr.nextCallId = nextCallIdAfter s.mgr.nextCallId) := by
  cases hp with
  | start a i comm k c p ha hi0 hn0 hk hli hts hu htx hh ho hp =>
    right
    have : k.callId = s.mgr.nextCallId := by rw [hk]
    refine ⟨?_, rfl⟩
    rcases ho with ⟨caller, ho, _⟩ | ⟨u, ho, _⟩
    · simp only [startOut, ho]
      split <;> simp [started, this]
    · simp [startOut, ho, started, this]
  | aside o ha =>
    left
    refine ⟨?_, rfl⟩
    cases o <;> simp only [CcOut.Aside] at ha <;> rfl
  | members => exact .inl ⟨rfl, rfl⟩
  | stop j c i cause hc hts =>
    refine .inl ⟨?_, rfl⟩
    simp only [endOut]
    split
    · split <;> rfl
    · rfl
  | expire i k hk ha =>
    refine .inl ⟨?_, rfl⟩
    split <;> rfl
  | cease j c brew net hc htx hb =>
    refine .inl ⟨?_, rfl⟩
    rcases hb with ⟨_, rfl⟩ | ⟨_, rfl⟩
    · split <;> rfl
    · rfl
  | grant j c ssi hc htx =>
    refine .inl ⟨?_, rfl⟩
    split <;> rfl
  | netGrant => exact .inl ⟨rfl, rfl⟩
  | announce => exact .inl ⟨rfl, rfl⟩

end Verif.Cmce
