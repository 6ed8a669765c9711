import Verif.Cmce.CallFloor
/-!
# C29: the floor of a call
-/
namespace Verif.Cmce
open Tdma

/-! ## Specification -/

/-- Whether somebody has the floor in a call, from the messages: from D-CONNECT or D-TX GRANTED to the group until D-TX
CEASED or D-RELEASE. -/
def busyAfter (t : Nat → Bool) : CcOut → Nat → Bool
  | .dConnect _ id _ _ _ => fun j => if j = id then true else t j
  | .dTxGranted (.group _) id _ _ _ => fun j => if j = id then true else t j
  | .dTxCeased _ id _ => fun j => if j = id then false else t j
  | .dRelease (.group _) id _ => fun j => if j = id then false else t j
  | _ => t
def busy (l : List CcOut) : Nat → Bool := l.foldl busyAfter fun _ => false

/-- The floor changes hands only when it is free, and is given up only by somebody who has it. -/
def FloorOrder (l : List CcOut) : Prop :=
  (∀ l1 l2 g id gr sp ts, l = l1 ++ .dTxGranted (.group g) id gr sp ts :: l2 → connected l1 id = true ∧ busy l1 id = false) ∧
  (∀ l1 l2 to id ts, l = l1 ++ .dTxCeased to id ts :: l2 → connected l1 id = true ∧ busy l1 id = true)

/-- A call is over at time `now`: nobody has talked for more than five multiframes (360 slots, 5.1 s), or, at the
beginning of a frame, the call is older than 25920 slots (six minutes). -/
def Known.over (k : Known) (now : Time) : Prop :=
  (∃ t, k.floor = .free t ∧ t.age now > 360) ∨ (now.t = 1 ∧ k.since.age now > 25920)

/-! ## Lemmas -/

theorem busy_append (a b : List CcOut) : busy (a ++ b) = b.foldl busyAfter (busy a) := List.foldl_append

/-- Whether somebody has the floor, in the table. -/
def Cc.held (s : Cc) (id : Nat) : Bool :=
  match s.calls.get id with
  | some c => c.tx
  | none => false

theorem aside_busy {o : CcOut} (h : o.Aside) (t : Nat → Bool) : busyAfter t o = t := by
  cases o <;> simp only [CcOut.Aside] at h <;> try rfl
  rename_i to id c
  cases to <;> simp at h <;> rfl

theorem busy_prim {m : Bool} {s s' : Cc} {o : List CcOut} (hi : CcInv s) (hp : Prim s m o s') : o.foldl busyAfter s.held = s'.held := by
  have hset : ∀ (id : Nat) (c : Call) (s' : Cc), s'.calls = s.calls.insert id c → s'.held = fun j => if j = id then c.tx else s.held j := by
    intro id c s' h
    funext j
    simp only [Cc.held, h, Assoc.get_insert, eq_comm (a := id)]
    by_cases e : j = id
    · simp [e]
    · simp [e]
  have hdel : ∀ (id : Nat) (s' : Cc), s'.calls = s.calls.erase id → s'.held = fun j => if j = id then false else s.held j := by
    intro id s' h
    funext j
    simp only [Cc.held, h, Assoc.get_erase, eq_comm (a := id)]
    by_cases e : j = id
    · simp [e]
    · simp [e]
  cases hp with
  | aside o ha => simp only [List.foldl_cons, List.foldl_nil, aside_busy ha]
  | members => rfl
  | start a i comm k c p ha hi0 hn0 hk hli hts hu htx hh ho hp =>
    refine Eq.trans ?_ (hset k.callId c _ rfl).symm
    rw [htx]
    rcases ho with ⟨caller, ho, _⟩ | ⟨u, ho, _⟩
    · simp only [startOut, ho]
      split <;> rfl
    · simp only [startOut, ho]; rfl
  | stop j c i cause hc hts =>
    refine Eq.trans ?_ (hdel j _ rfl).symm
    simp only [endOut]
    split
    · split <;> rfl
    · rfl
  | expire i k hk ha =>
    refine Eq.trans ?_ (hdel k.callId _ rfl).symm
    cases hc : s.calls.get k.callId with
    | none =>
      simp only [hi.noSetup _ hc]
      funext j
      simp only [List.nil_append, List.foldl_cons, List.foldl_nil, busyAfter]
      split
      · rename_i e; subst e; simp [Cc.held, hc]
      · rfl
    | some c =>
      obtain ⟨p, hp, hpid, _⟩ := hi.setup _ c hc
      simp only [hp, hpid]
      rfl
  | cease j c brew net hc htx hb =>
    refine Eq.trans ?_ (hset j { c with tx := false, hang := some s.now, brew := brew } _ rfl).symm
    rcases hb with ⟨_, rfl⟩ | ⟨_, rfl⟩
    · split <;> rfl
    · rfl
  | grant j c ssi hc htx =>
    refine Eq.trans ?_ (hset j { c with tx := true, hang := none, speaker := ssi, origin := c.origin.demanded ssi } _ rfl).symm
    split <;> rfl
  | netGrant j c u sp hc htx =>
    refine Eq.trans ?_ (hset j { c with speaker := sp, tx := true, hang := none, brew := some u, origin := c.origin.speak u } _ rfl).symm
    rfl
  | announce => rfl

/-- Splitting a list of messages. -/
theorem floorOrder_append {a b : List CcOut} (h : FloorOrder a)
    (h1 : ∀ b1 b2 g id gr sp ts, b = b1 ++ .dTxGranted (.group g) id gr sp ts :: b2 → connected (a ++ b1) id = true ∧ busy (a ++ b1) id = false)
    (h2 : ∀ b1 b2 to id ts, b = b1 ++ .dTxCeased to id ts :: b2 → connected (a ++ b1) id = true ∧ busy (a ++ b1) id = true) :
    FloorOrder (a ++ b) := by
  have key : ∀ (l1 l2 : List CcOut) (x : CcOut), a ++ b = l1 ++ x :: l2 →
      (∃ l3, a = l1 ++ x :: l3) ∨ (∃ b1, l1 = a ++ b1 ∧ b = b1 ++ x :: l2) := by
    intro l1 l2 x e
    rcases List.append_eq_append_iff.1 e with ⟨c, h3, h4⟩ | ⟨c, h3, h4⟩
    · exact .inr ⟨c, h3, h4⟩
    · cases c with
      | nil => exact .inr ⟨[], by simp at h3; simp [h3], by simpa using h4.symm⟩
      | cons y c => simp only [List.cons_append, List.cons.injEq] at h4; exact .inl ⟨c, by rw [h3, h4.1]⟩
  refine ⟨?_, ?_⟩
  · intro l1 l2 g id gr sp ts e
    rcases key _ _ _ e with ⟨l3, e1⟩ | ⟨b1, rfl, e2⟩
    · exact h.1 l1 l3 g id gr sp ts e1
    · exact h1 b1 l2 g id gr sp ts e2
  · intro l1 l2 to id ts e
    rcases key _ _ _ e with ⟨l3, e1⟩ | ⟨b1, rfl, e2⟩
    · exact h.2 l1 l3 to id ts e1
    · exact h2 b1 l2 to id ts e2

/-- Messages which do not concern the floor. -/
def CcOut.quiet : CcOut → Bool
  | .dTxGranted (.group _) _ _ _ _ => false
  | .dTxCeased _ _ _ => false
  | _ => true

theorem floorOrder_quiet {a b : List CcOut} (h : FloorOrder a) (hb : ∀ x ∈ b, x.quiet = true) : FloorOrder (a ++ b) := by
  refine floorOrder_append h ?_ ?_
  · intro b1 b2 g id gr sp ts e
    have := hb (.dTxGranted (.group g) id gr sp ts) (by rw [e]; simp)
    cases this
  · intro b1 b2 to id ts e
    have := hb (.dTxCeased to id ts) (by rw [e]; simp)
    cases this

theorem floorOrder_one {a b : List CcOut} {x : CcOut} (h : FloorOrder a) (hb : ∀ y ∈ b, y.quiet = true)
    (hx : ∀ g id gr sp ts, x = .dTxGranted (.group g) id gr sp ts → connected a id = true ∧ busy a id = false)
    (hy : ∀ to id ts, x = .dTxCeased to id ts → connected a id = true ∧ busy a id = true) : FloorOrder (a ++ x :: b) := by
  have e : a ++ x :: b = (a ++ [x]) ++ b := by simp
  rw [e]
  apply floorOrder_quiet _ hb
  refine floorOrder_append h ?_ ?_
  · intro b1 b2 g id gr sp ts e
    cases b1 with
    | nil => simp only [List.nil_append, List.cons.injEq] at e; rw [List.append_nil]; exact hx _ _ _ _ _ e.1
    | cons y b1 => simp at e
  · intro b1 b2 to id ts e
    cases b1 with
    | nil => simp only [List.nil_append, List.cons.injEq] at e; rw [List.append_nil]; exact hy _ _ _ e.1
    | cons y b1 => simp at e

theorem floorOrder_prim {m : Bool} {s s' : Cc} {l o : List CcOut} (hp : Prim s m o s')
    (hc : ∀ id, connected l id = (s.calls.get id).isSome) (hb : busy l = s.held) (h : FloorOrder l) : FloorOrder (l ++ o) := by
  cases hp with
  | aside o ha =>
    apply floorOrder_quiet h
    intro x hx
    obtain rfl : x = o := by simpa using hx
    cases x <;> simp only [CcOut.Aside] at ha <;> rfl
  | members => rw [List.append_nil]; exact h
  | start a i comm k c p ha hi0 hn0 hk hli hts hu htx hh ho hp =>
    apply floorOrder_quiet h
    rcases ho with ⟨caller, ho, _⟩ | ⟨u, ho, _⟩
    · simp only [startOut, ho]
      split <;> simp [CcOut.quiet]
    · simp [startOut, ho, CcOut.quiet]
  | stop j c i cause hc hts =>
    apply floorOrder_quiet h
    simp only [endOut]
    split
    · split <;> simp [CcOut.quiet]
    · simp [CcOut.quiet]
  | expire i k hk ha =>
    apply floorOrder_quiet h
    split <;> simp [CcOut.quiet]
  | cease j c brew net hc0 htx hb0 =>
    simp only [List.cons_append, List.nil_append]
    apply floorOrder_one h
    · rcases hb0 with ⟨_, rfl⟩ | ⟨_, rfl⟩
      · split <;> simp [CcOut.quiet]
      · simp [CcOut.quiet]
    · intro g id gr sp ts e; cases e
    · intro to id ts e
      cases e
      rw [hc, hc0, hb]
      simp [Cc.held, hc0, htx]
  | grant j c ssi hc0 htx =>
    have e1 : ∀ x y : CcOut, ∀ m, l ++ ([x, y] ++ m) = (l ++ [x]) ++ y :: m := by simp
    have h1 : FloorOrder (l ++ [.dTxGranted (.station ssi) j .granted ssi c.ts]) := floorOrder_quiet h (by simp [CcOut.quiet])
    have : FloorOrder ((l ++ [.dTxGranted (.station ssi) j .granted ssi c.ts]) ++ .dTxGranted (.group c.gssi) j .grantedToOther ssi c.ts ::
        (.macGranted j ssi c.gssi c.ts :: (if s.routable c.gssi then [.netGranted j ssi c.gssi c.ts] else []))) := by
      apply floorOrder_one h1
      · split <;> simp [CcOut.quiet]
      · intro g id gr sp ts e
        cases e
        rw [connected_append, busy_append]
        simp only [List.foldl_cons, List.foldl_nil, connectedAfter, busyAfter]
        rw [hc, hc0, hb]
        simp [Cc.held, hc0, htx]
      · intro to id ts e; cases e
    simpa using this
  | netGrant j c u sp hc0 htx =>
    apply floorOrder_one h
    · simp [CcOut.quiet]
    · intro g id gr sp ts e
      cases e
      rw [hc, hc0, hb]
      simp [Cc.held, hc0, htx]
    · intro to id ts e; cases e
  | announce =>
    apply floorOrder_quiet h
    simp [CcOut.quiet]

theorem ccRun_busy {r : Nat → Bool} {h : List (CcEv × List CcOut)} {s : Cc} (hr : CcRun r h s) :
    busy (messages h) = s.held ∧ FloorOrder (messages h) := by
  have := run_induct (r := r) (P := fun l s => (∀ id, connected l id = (s.calls.get id).isSome) ∧ busy l = s.held ∧ FloorOrder l)
    ⟨fun _ => rfl, rfl, by constructor <;> (intros; rename_i e; simp at e)⟩ ?_ ?_ ?_ ?_ hr
  · exact this.2
  · intro l s now h; exact h
  · intro l s now h; exact h
  · rintro l s o s' hi ⟨h1, h2, h3⟩ hp
    refine ⟨?_, ?_, floorOrder_prim hp h1 h2 h3⟩
    · intro id; rw [connected_append]; exact connected_prim hi hp h1 id
    · rw [busy_append, h2]; exact busy_prim hi hp
  · rintro l s s' hi ⟨h1, h2, h3⟩ ⟨calls', f, hp, hf, rfl⟩
    refine ⟨fun id => by rw [h1]; simp only [get_perm hp hi.ok], ?_, h3⟩
    rw [h2]
    funext id
    simp only [Cc.held, get_perm hp hi.ok]

theorem tasks_started (cmds : List Cmd) {s s' : Cc} {o : List CcOut} (h : s.tasks cmds = .ok (s', o)) : started o = [] := by
  induction cmds generalizing s o with
  | nil => cases h; rfl
  | cons x cmds ih =>
    cases x with
    | sendDSetup id u ts =>
      unfold Cc.tasks at h
      rw [Res.bind_eq_ok] at h
      obtain ⟨r, hr, h⟩ := h
      rw [Res.bind_eq_ok] at h
      obtain ⟨q, hq, h⟩ := h
      cases h
      rw [started_append, ih hq, List.append_nil]
      unfold Cc.announce at hr
      dsimp only at hr
      repeat' split at hr
      all_goals first
        | cases hr; rfl
        | rw [Res.bind_eq_ok] at hr
          obtain ⟨_, _, hr⟩ := hr
          cases hr; rfl
    | sendClose id k =>
      unfold Cc.tasks at h
      dsimp only at h
      rw [Res.bind_eq_ok] at h
      obtain ⟨q, hq, h⟩ := h
      cases h
      rw [started_append, ih hq, List.append_nil]
      simp only [Cc.expire, started_append]
      cases s.setups.get id <;> rfl

theorem tick_started {s s' : Cc} {now : Time} {o : List CcOut} (h : s.tick now = .ok (s', o)) : started o = [] := by
  unfold Cc.tick at h
  dsimp only at h
  rw [Res.bind_eq_ok] at h
  obtain ⟨r, hr, h⟩ := h
  rw [Res.bind_eq_ok] at h
  obtain ⟨m, _, h⟩ := h
  rw [Res.bind_eq_ok] at h
  obtain ⟨q, hq, h⟩ := h
  cases h
  rw [started_append, releaseAll_started _ hr, tasks_started _ hq]; rfl

theorem noReuse_append {a b : List CcOut} (h : NoReuse a) (hb : started b = []) : NoReuse (a ++ b) := by
  intro l1 l2 to id g o ch e
  rcases List.append_eq_append_iff.1 e with ⟨c, h3, h4⟩ | ⟨c, h3, h4⟩
  · rw [h4, started_append] at hb
    simp [started] at hb
  · cases c with
    | nil =>
      simp only [List.nil_append] at h4
      rw [← h4] at hb
      simp [started] at hb
    | cons y c =>
      simp only [List.cons_append, List.cons.injEq] at h4
      exact h l1 c to id g o ch (by rw [h3, h4.1])

/-! ## Properties -/

/-- **C29, one or the other.** In every call, whatever happened, either somebody has the floor and no hang timer runs, or
nobody has it and a hang timer runs; and who listens to the messages knows which. -/
theorem c29_floor {r : Nat → Bool} {h : List (CcEv × List CcOut)} {s : Cc} (hr : CcRun r h s) {id : Nat} {c : Call}
    (hc : s.calls.get id = some c) :
    (c.tx = true ∧ c.hang = none ∧ busy (messages h) id = true) ∨
    (c.tx = false ∧ (∃ t, c.hang = some t) ∧ busy (messages h) id = false) := by
  have hi := (ccRun_inv hr).floor id c hc
  have hb := congrFun (ccRun_busy hr).1 id
  simp only [Cc.held, hc] at hb
  rw [hb]
  cases hh : c.hang with
  | none => left; rw [hh] at hi; exact ⟨hi, rfl, hi⟩
  | some t => right; rw [hh] at hi; exact ⟨hi, ⟨t, rfl⟩, hi⟩

/-- **C29, the holder is not replaced.** In every history, the floor of a call is granted only while nobody has it: between
two talkers there is always a D-TX CEASED; and D-TX CEASED is only sent when somebody has the floor. -/
theorem c29_order {r : Nat → Bool} {h : List (CcEv × List CcOut)} {s : Cc} (hr : CcRun r h s) : FloorOrder (messages h) :=
  (ccRun_busy hr).2

/-- **C29, messages and state.** As long as no number is reused while in use, the messages tell of every call when it began,
who talks, and since when nobody does. -/
theorem c29_known {r : Nat → Bool} {h : List (CcEv × List CcOut)} {s : Cc} (hr : CcRun r h s) (hn : NoReuse (messages h)) (id : Nat) :
    (∀ k, (known h).2 id = some k ↔ ∃ c x, s.calls.get id = some c ∧ (∃ i, s.mgr.dl i = some x ∧ c.ts = i.val + 1 ∧ x.callId = id) ∧ k.since = x.tsCreated ∧
      ((c.hang = none ∧ k.floor = .talking c.speaker) ∨ ∃ t, c.hang = some t ∧ k.floor = .free t)) := by
  intro k
  have hk := (ccRun_known hr).2.2 hn id
  have hi := ccRun_inv hr
  constructor
  · intro h1
    cases hc : s.calls.get id with
    | none => rw [hk.1 hc] at h1; cases h1
    | some c =>
      obtain ⟨i, x, a1, a2, a3, a4⟩ := hk.2 c hc
      rw [h1] at a4; cases a4
      refine ⟨c, x, rfl, ⟨i, a1, a2, a3⟩, rfl, ?_⟩
      simp only [Call.floor]
      cases c.hang with
      | none => exact .inl ⟨rfl, rfl⟩
      | some t => exact .inr ⟨t, rfl, rfl⟩
  · rintro ⟨c, x, hc, ⟨i, b1, b2, b3⟩, h2, h3⟩
    obtain ⟨i', x', a1, a2, a3, a4⟩ := hk.2 c hc
    have : i' = i := Fin.ext (by omega)
    subst this
    rw [b1] at a1; cases a1
    rw [a4]
    obtain ⟨ks, kf⟩ := k
    simp only at h2 h3
    subst h2
    rcases h3 with ⟨h3, h4⟩ | ⟨t, h3, h4⟩ <;> simp [Call.floor, h3, h4]

/-- **C29, demands.** A demand for the floor while somebody talks changes nothing and is not answered; while nobody talks it
is granted to the station which asked, and the group is told. -/
theorem c29_demand {r : Nat → Bool} {h : List (CcEv × List CcOut)} {s : Cc} (hr : CcRun r h s) (ssi : Nat) {id : Nat}
    (hc : connected (messages h) id = true) :
    (busy (messages h) id = true → s.step (.uTxDemand ssi id) = .ok (s, [])) ∧
    (busy (messages h) id = false → ∃ s' out g ts, s.step (.uTxDemand ssi id) = .ok (s', out) ∧
      [.dTxGranted (.station ssi) id .granted ssi ts, .dTxGranted (.group g) id .grantedToOther ssi ts, .macGranted id ssi g ts] <+: out ∧
      ∃ c c', s.calls.get id = some c ∧ s'.calls.get id = some c' ∧ c.gssi = g ∧ c.ts = ts ∧ c'.speaker = ssi ∧ c'.tx = true) := by
  rw [ccRun_connected hr, Option.isSome_iff_exists] at hc
  obtain ⟨c, hc⟩ := hc
  have hb := congrFun (ccRun_busy hr).1 id
  simp only [Cc.held, hc] at hb
  rw [hb]
  constructor
  · intro ht
    simp [Cc.step, Cc.demand, hc, ht]
  · intro ht
    obtain ⟨p, hp, _, hg⟩ := (ccRun_inv hr).setup id c hc
    obtain ⟨i, hi⟩ := (ccRun_inv hr).idx hc
    refine ⟨{ s with calls := s.calls.insert id { c with tx := true, hang := none, speaker := ssi, origin := c.origin.demanded ssi } },
      [.dTxGranted (.station ssi) id .granted ssi c.ts, .dTxGranted (.group c.gssi) id .grantedToOther ssi c.ts,
        .macGranted id ssi c.gssi c.ts] ++ (if s.routable c.gssi then [.netGranted id ssi c.gssi c.ts] else []), c.gssi, c.ts, ?_,
      List.prefix_append _ _, c, _, hc, Assoc.get_insert_self _ _ _, rfl, rfl, rfl, rfl⟩
    simp only [Cc.step, Cc.demand, hc, ht, hp, hi, Res.bind_ok, hg]
    rfl

/-- **C29, network speakers.** While somebody talks in every call to a group, a speaker from the network is refused, and
nothing changes. -/
theorem c29_network_demand {r : Nat → Bool} {h : List (CcEv × List CcOut)} {s : Cc} (hr : CcRun r h s) (hn : NoReuse (messages h))
    {uuid speaker g : Nat} (hg : r g = true) (hl : s.hasListener g = true) {id u ts : Nat} (hid : heard (messages h) id = some (g, u, ts))
    (hall : ∀ id u ts, heard (messages h) id = some (g, u, ts) → busy (messages h) id = true) :
    s.step (.netStart uuid speaker g) = .ok (s, [.netCallEnd uuid]) := by
  have hrt := ccRun_routable hr
  have hv := (ccRun_view hr hn).2
  rw [hv] at hid hall
  simp only [Cc.step, Cc.netStart, hrt, hg, hl, if_true]
  cases hf : s.calls.find? (fun e => e.2.gssi = g) with
  | none =>
    simp only [Cc.view, Option.map_eq_some_iff] at hid
    obtain ⟨c, hc, e⟩ := hid
    rw [List.find?_eq_none] at hf
    have := hf _ (Assoc.mem_of_get hc)
    simp only [Prod.mk.injEq] at e
    simp [e.1] at this
  | some x =>
    obtain ⟨id', c⟩ := x
    obtain ⟨hc, hgs⟩ := find_get (ccRun_inv hr) hf
    have := hall id' c.usage c.ts (by simp only [Cc.view, hc, Option.map_some]; simp at hgs; rw [hgs])
    rw [(ccRun_busy hr).1] at this
    simp only [Cc.held, hc] at this
    simp [this]

/-- **C29, end of the hang time.** Every tick ends exactly the calls which are over, with a D-RELEASE to the group, and
leaves all others as they are. -/
theorem c29_tick {r : Nat → Bool} {h : List (CcEv × List CcOut)} {s : Cc} (hr : CcRun r h s) (hn : NoReuse (messages h)) (now : Time) :
    ∃ s' out, s.step (.tick now) = .ok (s', out) ∧ NoReuse (messages (h ++ [(.tick now, out)])) ∧
      ∀ id, (known (h ++ [(.tick now, out)])).2 id = none ∧ ((known h).2 id = none ∨ ∃ k, (known h).2 id = some k ∧ k.over now) ∨
        ∃ k, (known h).2 id = some k ∧ ¬ k.over now ∧ (known (h ++ [(.tick now, out)])).2 id = some k := by
  have hi := ccRun_inv hr
  obtain ⟨s', out, h1, h2, _, _, hnow, hsame, hhang, hgone, hdl⟩ := tick_prims hi now
  have hr' := CcRun.step hr (e := .tick now) h1
  have hst : started out = [] := tick_started h1
  have hn' : NoReuse (messages (h ++ [(.tick now, out)])) := by
    have : messages (h ++ [(.tick now, out)]) = messages h ++ out := by simp [messages]
    rw [this]
    exact noReuse_append hn hst
  have hi' := ccRun_inv hr'
  refine ⟨s', out, h1, hn', ?_⟩
  intro id
  have hk := (ccRun_known hr).2.2 hn id
  have hk' := (ccRun_known hr').2.2 hn' id
  cases hc : s.calls.get id with
  | none =>
    left
    refine ⟨hk'.1 ?_, .inl (hk.1 hc)⟩
    rcases hsame id with h | h
    · rw [h, hc]
    · exact h
  | some c =>
    obtain ⟨i, x, a1, a2, a3, a4⟩ := hk.2 c hc
    have hhe : id ∈ (s.clock now).hangExpired ↔ ∃ t, c.hang = some t ∧ t.age now > 360 := by
      simp only [Cc.hangExpired, Cc.clock, List.mem_map, List.mem_filter]
      constructor
      · rintro ⟨⟨j, d⟩, ⟨hm, hd⟩, rfl⟩
        rw [Assoc.get_of_mem hi.ok hm] at hc; cases hc
        simp only at hd
        split at hd
        · rename_i t ht; exact ⟨t, ht, by simpa [hangLimit] using hd⟩
        · cases hd
      · rintro ⟨t, ht, hage⟩
        exact ⟨(id, c), ⟨Assoc.mem_of_get hc, by simp only [ht]; simpa [hangLimit] using hage⟩, rfl⟩
    have hover : (⟨x.tsCreated, c.floor⟩ : Known).over now ↔ (id ∈ (s.clock now).hangExpired ∨ (now.t = 1 ∧ x.age now > 25920)) := by
      rw [hhe]
      unfold Known.over
      apply or_congr _ Iff.rfl
      simp only [Call.floor]
      cases c.hang with
      | none => simp
      | some t => simp
    rcases hsame id with h | h
    · right
      rw [hc] at h
      obtain ⟨i', x', b1, b2, b3, b4⟩ := hk'.2 c h
      have e : i' = i := Fin.ext (by omega)
      subst e
      obtain ⟨c1, c2⟩ := hdl _ _ b1
      rw [a1] at c1; cases c1
      refine ⟨_, a4, ?_, b4⟩
      rw [hover]
      rintro (h3 | ⟨h3, h4⟩)
      · rw [hhang id h3] at h; cases h
      · exact c2 h3 h4
    · left
      refine ⟨hk'.1 h, .inr ⟨_, a4, ?_⟩⟩
      rw [hover]
      rcases hgone id c hc h with h3 | ⟨h3, i', k', d1, d2, d3⟩
      · exact .inl h3
      · right
        refine ⟨h3, ?_⟩
        have hl := (ccRun_view hr hn).1
        obtain ⟨c', e1, e2⟩ := hl i' k' d1
        rw [d2, hc] at e1; cases e1
        have e : i' = i := Fin.ext (by omega)
        subst e
        rw [a1] at d1; cases d1
        exact d3

end Verif.Cmce
