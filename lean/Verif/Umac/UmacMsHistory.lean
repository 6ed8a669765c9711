import Verif.Umac.UmacMsBlock
import Verif.Umac.SchedLineProps
/-!
# A mobile station listening to a history of the channel scheduler: lemmas
-/
namespace Verif.Umac
open Verif.Bits Verif.Codec Verif.Tdma Verif.Mle

/-- What the upper MAC of a mobile station on timeslot `t` is given of a slot: the block, whole, if it is on a signalling channel. -/
def listenSlot (t sc : Nat) (x : TickOut) : List MsCall :=
  if x.slot.ts.t = t then
    match x.slot.blk1.chan with
    | .schF => [.block x.slot.ts .schF (some .both) sc (Verif.Phy.whole x.slot.blk1.blk)]
    | .schHd => [.block x.slot.ts .schHd (some .block1) sc (Verif.Phy.whole x.slot.blk1.blk)]
    | _ => []
  else []

/-- What it is given in a history. -/
def listenOn (t sc : Nat) (tr : List (SchedEv × SchedRet)) : List MsCall :=
  tr.flatMap fun p => match p.2 with
    | .sent x => listenSlot t sc x
    | _ => []

/-- What senders are told when a slot of timeslot `t` has been built. -/
def reportsAt (t : Nat) (x : TickOut) : List Report := if x.slot.ts.t = t then x.reports else []

/-- What senders are told in a history when slots of timeslot `t` are built. -/
def reportsOn (t : Nat) (tr : List (SchedEv × SchedRet)) : List Report :=
  tr.flatMap fun p => match p.2 with
    | .sent x => reportsAt t x
    | _ => []

/-- What senders are told in a history. -/
def reported (tr : List (SchedEv × SchedRet)) : List Report :=
  tr.flatMap fun p => match p.2 with
    | .sent x => x.reports
    | .dropped r => r
    | _ => []

/-- `want` lists, by their numbers, the messages of timeslot `t`. They are unencrypted, of at most 4096 bits, and reported on. -/
def SchedEv.Fits (t : Nat) (want : Nat → Option Wanted) : SchedEv → Prop
  | .message t' id rep pdu sdu =>
    if t' = t then rep = true ∧ pdu.encryptionMode = 0 ∧ sdu.length ≤ 4096 ∧
      ∃ a n, pdu.onAir.addr = some a ∧ pdu.headerLen = .ok n ∧ want id = some ⟨a, n, sdu⟩
    else want id = none
  | .steal _ id _ _ => want id = none
  | _ => True

/-- A grant or an acknowledgement on timeslot `t`. -/
def SchedEv.grants (t : Nat) : SchedEv → Prop
  | .grant t' _ _ => t' = t
  | .ack t' _ => t' = t
  | _ => False

section
variable {own : Prop} {want : Nat → Option Wanted} {sc : Nat}

theorem Heard.append {a b : List Wanted} {x y : List MsOut} (h1 : Heard sc a x) (h2 : Heard sc b y) : Heard sc (a ++ b) (x ++ y) := by
  induction h1 with
  | nil => exact h2
  | whole _ ih => rw [List.append_assoc]; exact .whole ih
  | short k got hk hs _ ih => rw [List.append_assoc]; exact .short k got hk hs ih

/-- The slot brings nothing for the station. -/
theorem nothing_heard {m : UmacMs} {i : Fin 4} {q : List DlElem} {rs : List Report} (hr : told want rs = []) (hm : InStep i m q) :
    Outcome (Risky own want) (fun y => Heard sc (told want rs) y.2 ∧ InStep i y.1 q) (m.run []) := by
  rw [hr]; exact ⟨.nil, hm⟩

theorem run_one {m : UmacMs} {c : MsCall} {P : UmacMs × List MsOut → Prop} {bad : Prop} (h : Outcome bad P (m.call c)) :
    Outcome bad P (m.run [c]) := by
  refine h.bind (fun x hx => ?_)
  show P (x.1, x.2 ++ [])
  rw [List.append_nil]; exact hx

theorem qgood_filter {q : List DlElem} (h : QGood own want q) (p : DlElem → Bool) : QGood own want (q.filter p) :=
  ⟨fun e he => h.carries e (List.mem_filter.1 he).1, fun b o he => h.stolen b o (List.mem_filter.1 he).1,
    fun e he => h.mine e (List.mem_filter.1 he).1⟩

theorem qgood_sub {q q' : List DlElem} (h : QGood own want q) (hs : ∀ e ∈ q', e ∈ q) : QGood own want q' :=
  ⟨fun e he => h.carries e (hs e he), fun b o he => h.stolen b o (hs _ he), fun e he => h.mine e (hs e he)⟩

theorem qgood_append {q q' : List DlElem} (h : QGood own want q) (h' : QGood own want q') : QGood own want (q ++ q') :=
  ⟨fun e he => (List.mem_append.1 he).elim (h.carries e) (h'.carries e),
    fun b o he => (List.mem_append.1 he).elim (h.stolen b o) (h'.stolen b o),
    fun e he => (List.mem_append.1 he).elim (h.mine e) (h'.mine e)⟩

/-- A block of null PDUs stays one when it is ended. -/
theorem close_null {r r' : TmvReq} (h : r.close = .ok r') {x : List Bool} (hb : r.blk.bits = nullBits ++ x) :
    ∃ y, Verif.Phy.whole r'.blk = nullBits ++ y := by
  unfold TmvReq.close at h
  split at h
  · rw [Out.bind_eq_ok] at h; obtain ⟨_, _, h⟩ := h
    rw [Out.bind_eq_ok] at h; obtain ⟨_, _, h⟩ := h
    rw [Out.bind_eq_ok] at h; obtain ⟨b, hw, h⟩ := h
    cases h
    rw [(write_ok hw).1]
    unfold Verif.Phy.whole
    simp only [hb, List.append_assoc]
    exact ⟨_, rfl⟩
  · cases h
    unfold Verif.Phy.whole
    rw [hb, List.append_assoc]
    exact ⟨_, rfl⟩

theorem leftOver_qgood {es : List DlElem} {b b' : Blk} {rs : List (Fragger × List Bool)} (h : Round es b rs b')
    (hg : ∀ e ∈ es, e.Good) (hc : ∀ e ∈ es, e.Carries own want) : QGood own want (leftOver es rs) := by
  have hf := leftOver_good h hg
  refine ⟨round_carries h hg hc, ?_, ?_⟩
  · intro b o he
    have := (hf _ he).2
    simp [DlElem.isFrag] at this
  · intro e he hk
    have := (hf _ he).2
    cases e <;> simp_all [DlElem.isFrag, DlElem.isGrantOrAck]

theorem count_stolen (q : List DlElem) : (stolenOf q).countP DlElem.begun = 0 := by
  rw [List.countP_eq_zero]
  intro x hx h
  have h1 := begun_isFrag h
  have h2 := (List.mem_filter.1 hx).2
  cases x <;> simp_all [DlElem.isFrag, DlElem.isStealing]

theorem stolen_holds {q : List DlElem} {d : DefragBuf} : ∀ e ∈ stolenOf q, Holds d e := not_begun (count_stolen q)

theorem default_null {pre : Precomps} {scramb : Nat} {ts : Time} {r : TmvReq} (h : defaultBlk pre scramb ts = .ok r)
    (hc : r.chan = .schF ∨ r.chan = .schHd) : r.blk.bits = nullBits := by
  unfold defaultBlk at h
  split at h
  · exfalso
    unfold syncBlk at h
    rw [Out.bind_eq_ok] at h; obtain ⟨_, _, h⟩ := h
    rw [Out.bind_eq_ok] at h; obtain ⟨_, _, h⟩ := h
    rw [Out.bind_eq_ok] at h; obtain ⟨_, _, h⟩ := h
    rw [Out.bind_eq_ok] at h; obtain ⟨_, _, h⟩ := h
    cases h
    rcases hc with hc | hc <;> cases hc
  · split at h
    · split at h
      · rw [idle_eq (by decide), Out.bind_ok] at h; cases h; rfl
      · rw [idle_eq (by decide), Out.bind_ok] at h; cases h; rfl
    · cases h

theorem finalize_heard {s s' : Sched} {x : TickOut} (hs : SInv s) (h : s.finalize = .ok (s', x)) {i : Fin 4}
    (hq : QGood own want (s.queues i)) (h1 : (s.queues i).countP DlElem.begun ≤ 1) (h2 : (s'.queues i).countP DlElem.begun ≤ 1)
    {m : UmacMs} (hm : InStep i m (s.queues i)) :
    QGood own want (s'.queues i) ∧
    Outcome (Risky own want) (fun y => Heard sc (told want (reportsAt (i.val + 1) x)) y.2 ∧ InStep i y.1 (s'.queues i))
      (m.run (listenSlot (i.val + 1) sc x)) := by
  obtain ⟨_, i0, hi0, k2, _⟩ := finalize_track hs h
  obtain ⟨F⟩ := finalize_inv h
  have hs1 : SInv ({ s with pre := s.pre.stamp F.ts } : Sched) := ⟨hs.next, hs.good⟩
  have hi : F.i = i0 := by
    have := Slots.idx_ok.1 F.hi
    rw [F.hxt] at hi0
    apply Fin.ext; omega
  by_cases hii : i = i0
  · subst hii
    have hq' : s'.queues = F.p.s.queues := by
      have := congrArg Sched.queues F.hs'
      exact this
    rw [hq'] at h2 ⊢
    have hrep : reportsAt (i.val + 1) x = F.p.reports := by simp [reportsAt, hi0, F.hxr]
    have hlis : listenSlot (i.val + 1) sc x = match x.slot.blk1.chan with
        | .schF => [.block x.slot.ts .schF (some .both) sc (Verif.Phy.whole x.slot.blk1.blk)]
        | .schHd => [.block x.slot.ts .schHd (some .block1) sc (Verif.Phy.whole x.slot.blk1.blk)]
        | _ => [] := by simp [listenSlot, hi0]
    rw [hrep, hlis]
    have hclose := F.hc1
    have hchan := close_chan hclose
    rcases build_inv F.hi F.hp with ⟨c1, c2, c3, c4⟩ | ⟨_, c4⟩
    · unfold Sched.trafficPart at c4
      rw [Out.bind_eq_ok] at c4; obtain ⟨c, hc, c4⟩ := c4
      rw [Out.bind_eq_ok] at c4; obtain ⟨tch, htch, c4⟩ := c4
      simp only at c4
      cases hst : takeFirst (·.isStealing) (s.queues F.i) with
      | none =>
        rw [hst] at c4
        simp only [Out.ok.injEq] at c4
        have hfb := F.hb1
        rw [← c4] at hfb h2 ⊢
        simp only [Sched.firstBlk, Out.ok.injEq] at hfb
        rw [hchan, ← hfb]
        exact ⟨hq, nothing_heard rfl hm⟩
      | some r =>
        obtain ⟨e, q'⟩ := r
        rw [hst] at c4
        obtain ⟨t1, _, _, _, _, t6, t7⟩ := takeFirst_some hst
        cases e with
        | stealing b o =>
          simp only [Out.ok.injEq] at c4
          have hfb := F.hb1
          rw [← c4] at hfb h2 ⊢
          simp only [Sched.firstBlk, Out.ok.injEq] at hfb
          rw [hchan, ← hfb]
          rw [← hi] at hq hm ⊢
          simp only [Slots.upd_self]
          refine ⟨qgood_sub hq t6, nothing_heard (hq.stolen b o t7) ⟨fun e he => hm.holds e (t6 e he), hm.clean⟩⟩
        | ack _ => simp [DlElem.isStealing] at t1
        | grant _ _ => simp [DlElem.isStealing] at t1
        | resource _ _ _ => simp [DlElem.isStealing] at t1
        | frag _ _ => simp [DlElem.isStealing] at t1
    · unfold Sched.signallingPart at c4
      rw [Out.bind_eq_ok] at c4; obtain ⟨q, hqi, c4⟩ := c4
      rw [Out.bind_eq_ok] at c4; obtain ⟨r, hr, c4⟩ := c4
      rw [Out.bind_eq_ok] at c4; obtain ⟨b, hb, c4⟩ := c4
      simp only [Out.ok.injEq] at c4
      have hfb := F.hb1
      rw [← c4] at hfb h2 ⊢
      rw [← hi] at hq hm h1 h2 ⊢
      simp only [Slots.upd_self] at h2 ⊢
      obtain ⟨q1, e1, e2, e3, e3', _, e4, e5⟩ := integrate_queue (hs.good F.i)
      simp only at hqi
      rw [hqi] at e1; cases e1
      obtain ⟨g1, g2⟩ := integrate_qgood hqi hq
      have hmq : InStep F.i m q := ⟨holds_frags g2 hm.holds, hm.clean⟩
      have h1q : q.countP DlElem.begun ≤ 1 := by rw [count_frags q, g2, ← count_frags]; exact h1
      simp only at hr
      rw [hs.next] at hr
      -- nothing built: an idle block or a default block
      have quiet : r.2.buf = none → r.2.reports = [] → InStep F.i m r.1 →
          Outcome (Risky own want) (fun y => Heard sc (told want r.2.reports) y.2 ∧ InStep F.i y.1 r.1)
            (m.run (match x.slot.blk1.chan with
              | .schF => [.block x.slot.ts .schF (some .both) sc (Verif.Phy.whole x.slot.blk1.blk)]
              | .schHd => [.block x.slot.ts .schHd (some .block1) sc (Verif.Phy.whole x.slot.blk1.blk)]
              | _ => [])) := by
        intro u1 u2 u3
        rw [u2]
        have hnull : F.b1.chan = .schF ∨ F.b1.chan = .schHd → F.b1.blk.bits = nullBits := by
          intro hch
          rw [u1] at hb
          simp only [signallingBlk] at hb
          split at hb
          · rw [idle_eq (by decide), Out.bind_ok] at hb
            cases hb
            simp only [Sched.firstBlk, Out.ok.injEq] at hfb
            rw [← hfb]
          · cases hb
            exact default_null hfb hch
        have bl : ∀ c, x.slot.blk1.chan = c → c = .schF ∨ c = .schHd → ∃ y, Verif.Phy.whole x.slot.blk1.blk = nullBits ++ y := by
          intro c hc hor
          exact close_null hclose (x := []) (by rw [List.append_nil]; exact hnull (by rw [← hchan, hc]; exact hor))
        split
        · rename_i hch
          obtain ⟨y, hy⟩ := bl _ hch (.inl rfl)
          apply run_one
          simp only [UmacMs.call, if_true]
          rw [hy, rxSch_null]
          exact ⟨.nil, u3⟩
        · rename_i hch
          obtain ⟨y, hy⟩ := bl _ hch (.inr rfl)
          apply run_one
          simp only [UmacMs.call, true_or, if_true]
          rw [hy, rxSch_null]
          exact ⟨.nil, u3⟩
        · exact ⟨.nil, u3⟩
      by_cases hf : F.ts.f = 18
      · rw [hf, buildBlock_18] at hr
        cases hr
        exact ⟨g1, quiet rfl rfl hmq⟩
      · obtain ⟨rs, blk', hrd, w1, w2, w3, w4, w5⟩ := buildBlock_spec hf e3 e2
        have hor : stolenOf q = [] ∨ leftOver (workOf q) rs = [] := by
          by_cases ha : stolenOf q = []
          · exact .inl ha
          · by_cases hb : leftOver (workOf q) rs = []
            · exact .inr hb
            · rw [w5 ha hb] at hr; cases hr
        rw [w4 hor] at hr
        cases hr
        simp only at h2 ⊢
        have hlq : QGood own want (leftOver (workOf q) rs) :=
          leftOver_qgood hrd (fun e he => e2 e (workOf_mem he).1) (fun e he => g1.carries e (workOf_mem he).1)
        refine ⟨qgood_append (qgood_filter g1 _) hlq, ?_⟩
        by_cases hw : workOf q = []
        · simp only [hw, if_true] at quiet ⊢
          refine quiet trivial (by simp [finished]) ⟨?_, hm.clean⟩
          intro e he
          simp only [leftOver, List.zip_nil_left, List.filterMap_nil, List.append_nil] at he
          exact stolen_holds e he
        · simp only [hw, if_false, signallingBlk, Out.ok.injEq] at hb
          rw [← hb] at hfb
          simp only [Sched.firstBlk, Out.ok.injEq] at hfb
          have hc1 : F.b1.chan = .schF := by rw [← hfb]
          rw [hchan, hc1]
          apply run_one
          simp only [UmacMs.call, if_true]
          have hpieces : ((pieces (workOf q) rs).map Prod.snd) = rs.map Prod.snd := by
            have hl := round_length hrd
            unfold pieces
            rw [List.map_map]
            have : (Prod.snd ∘ fun (p : DlElem × (Fragger × List Bool)) => (p.1.owner, p.2.2)) = Prod.snd ∘ Prod.snd := rfl
            rw [this, ← List.map_map, List.map_snd_zip (by omega)]
          rw [hpieces] at w3
          rw [List.countP_append, count_stolen] at h2
          have := rxSch_built (own := own) (want := want) (t := x.slot.ts) (sc := sc) (i := F.i) (m := m) hrd w1 w2 w3
            (r := F.b1) (by rw [← hfb]) hc1 hclose (by rw [hi]; exact hi0) e2 g1 h1q (by omega) hmq
          refine this.mono (fun h => h) (fun y hy => ⟨hy.1, ?_, hy.2.clean⟩)
          intro e he
          rcases List.mem_append.1 he with he | he
          · exact stolen_holds e he
          · exact hy.2.holds e he
  · have hne : ¬ x.slot.ts.t = i.val + 1 := by
      intro hh
      apply hii
      apply Fin.ext; omega
    rw [k2 i hii]
    simp only [listenSlot, reportsAt, hne, if_false]
    exact ⟨hq, nothing_heard rfl hm⟩

/-! ## Any call -/

/-- What a station is given after one call. -/
def listenRet (t sc : Nat) : SchedRet → List MsCall
  | .sent x => listenSlot t sc x
  | _ => []

def reportsRet (t : Nat) : SchedRet → List Report
  | .sent x => reportsAt t x
  | _ => []

theorem listenOn_cons (t : Nat) (p : SchedEv × SchedRet) (tr : List (SchedEv × SchedRet)) :
    listenOn t sc (p :: tr) = listenRet t sc p.2 ++ listenOn t sc tr := by
  simp only [listenOn, List.flatMap_cons]
  cases p.2 <;> rfl

theorem reportsOn_cons (t : Nat) (p : SchedEv × SchedRet) (tr : List (SchedEv × SchedRet)) :
    reportsOn t (p :: tr) = reportsRet t p.2 ++ reportsOn t tr := by
  simp only [reportsOn, List.flatMap_cons]
  cases p.2 <;> rfl

theorem msRun_append (m : UmacMs) (a b : List MsCall) :
    m.run (a ++ b) = (do let r ← m.run a; let q ← r.1.run b; .ok (q.1, r.2 ++ q.2)) := by
  induction a generalizing m with
  | nil =>
    simp only [List.nil_append, UmacMs.run, Out.bind_ok]
    cases m.run b <;> rfl
  | cons c a ih =>
    simp only [List.cons_append, UmacMs.run]
    cases m.call c with
    | ok r =>
      simp only [Out.bind_ok, ih]
      cases r.1.run a with
      | ok r2 =>
        simp only [Out.bind_ok]
        cases r2.1.run b with
        | ok r3 => simp only [Out.bind_ok, List.append_assoc]
        | err => rfl
        | panic => rfl
      | err => rfl
      | panic => rfl
    | err => rfl
    | panic => rfl

theorem step_heard {s s' : Sched} {ev : SchedEv} {ret : SchedRet} (hs : SInv s) (h : s.step ev = .ok (s', ret))
    {i : Fin 4} (hfit : ev.Fits (i.val + 1) want) (hown : ev.grants (i.val + 1) → own)
    (hq : QGood own want (s.queues i)) (h1 : (s.queues i).countP DlElem.begun ≤ 1) (h2 : (s'.queues i).countP DlElem.begun ≤ 1)
    {m : UmacMs} (hm : InStep i m (s.queues i)) :
    QGood own want (s'.queues i) ∧
    Outcome (Risky own want) (fun y => Heard sc (told want (reportsRet (i.val + 1) ret)) y.2 ∧ InStep i y.1 (s'.queues i))
      (m.run (listenRet (i.val + 1) sc ret)) := by
  have same : ∀ ret, (∀ x, ret ≠ .sent x) → s'.queues i = s.queues i → QGood own want (s'.queues i) ∧
      Outcome (Risky own want) (fun y => Heard sc (told want (reportsRet (i.val + 1) ret)) y.2 ∧ InStep i y.1 (s'.queues i))
      (m.run (listenRet (i.val + 1) sc ret)) := by
    intro ret hr he
    rw [he]
    cases ret with
    | sent x => exact absurd rfl (hr x)
    | _ => exact ⟨hq, nothing_heard rfl hm⟩
  have pushed : ∀ {t : Nat} {el : DlElem}, s.push t el = .ok s' → ret = .none → el.begun = false →
      (t = i.val + 1 → QGood own want [el]) → QGood own want (s'.queues i) ∧
      Outcome (Risky own want) (fun y => Heard sc (told want (reportsRet (i.val + 1) ret)) y.2 ∧ InStep i y.1 (s'.queues i))
      (m.run (listenRet (i.val + 1) sc ret)) := by
    intro t el hp hret hb hel
    subst hret
    unfold Sched.push at hp
    rw [Out.bind_eq_ok] at hp; obtain ⟨k, hk, hp⟩ := hp
    rw [Out.ofRes_eq_ok] at hk
    by_cases hi : i = k
    · subst hi
      have hel := hel (Slots.idx_ok.1 hk)
      have hqs : s'.queues i = s.queues i ++ [el] := by cases hp; exact Slots.upd_self _ _ _
      rw [hqs]
      refine ⟨qgood_append hq hel, nothing_heard rfl ⟨?_, hm.clean⟩⟩
      intro e he
      rcases List.mem_append.1 he with he | he
      · exact hm.holds e he
      · rw [List.mem_singleton.1 he]
        exact not_begun (l := [el]) (by simp [hb]) el (by simp)
    · exact same _ (by simp) (by cases hp; exact Slots.upd_ne _ _ hi)
  have ownElem : ∀ el : DlElem, el.isGrantOrAck = true → own → QGood own want [el] := by
    intro el he ho
    refine ⟨?_, ?_, fun _ _ _ => ho⟩
    · intro e hm f o hf
      rw [List.mem_singleton.1 hm] at hf
      cases el <;> simp_all [DlElem.isGrantOrAck, DlElem.fragger]
    · intro b o hm
      rw [← List.mem_singleton.1 hm] at he
      simp [DlElem.isGrantOrAck] at he
  cases ev with
  | tick =>
    simp only [Sched.step] at h
    rw [Out.bind_eq_ok] at h; obtain ⟨c, hc, h⟩ := h
    rw [Out.bind_eq_ok] at h; obtain ⟨r, hr, h⟩ := h
    cases h
    exact finalize_heard (s := { s with cur := c }) ⟨hs.next, hs.good⟩ (s' := r.1) (x := r.2) hr hq h1 h2 hm
  | capReq t ssi code =>
    simp only [Sched.step] at h
    rw [Out.bind_eq_ok] at h; obtain ⟨r, hr, h⟩ := h
    cases h
    exact same _ (by simp) rfl
  | grant t a g =>
    simp only [Sched.step] at h
    rw [Out.bind_eq_ok] at h; obtain ⟨r, hr, h⟩ := h
    cases h
    exact pushed hr rfl rfl (fun ht => ownElem _ rfl (hown ht))
  | ack t a =>
    simp only [Sched.step] at h
    rw [Out.bind_eq_ok] at h; obtain ⟨r, hr, h⟩ := h
    cases h
    exact pushed hr rfl rfl (fun ht => ownElem _ rfl (hown ht))
  | message t id rep pdu sdu =>
    simp only [Sched.step] at h
    rw [Out.bind_eq_ok] at h; obtain ⟨r, hr, h⟩ := h
    cases h
    refine pushed hr rfl rfl (fun ht => ?_)
    simp only [SchedEv.Fits, if_pos ht] at hfit
    obtain ⟨f1, f2, f3, a, n, f4, f5, f6⟩ := hfit
    refine ⟨?_, ?_, ?_⟩
    · intro e hm f o hf
      rw [List.mem_singleton.1 hm] at hf
      simp only [DlElem.fragger, Option.some.injEq, Prod.mk.injEq] at hf
      obtain ⟨rfl, rfl⟩ := hf
      refine ⟨f2, f3, by simp [Fragger.new], .inr ⟨id, _, by rw [f1], f6, f4, rfl, ?_⟩⟩
      intro k hk
      rw [show (Fragger.new pdu sdu).resource = pdu from rfl, f5] at hk
      cases hk; rfl
    · intro b o hm; simp at hm
    · intro e hm hk
      rw [List.mem_singleton.1 hm] at hk
      simp [DlElem.isGrantOrAck] at hk
  | steal t id rep b =>
    simp only [Sched.step] at h
    rw [Out.bind_eq_ok] at h; obtain ⟨r, hr, h⟩ := h
    cases h
    refine pushed hr rfl rfl (fun ht => ?_)
    have hn : want id = none := hfit
    refine ⟨?_, ?_, ?_⟩
    · intro e hm f o hf
      rw [List.mem_singleton.1 hm] at hf
      simp [DlElem.fragger] at hf
    · intro b' o hm
      simp only [List.mem_singleton, DlElem.stealing.injEq] at hm
      rw [hm.2]
      cases rep <;> simp [Owner.sent, told, hn]
    · intro e hm hk
      rw [List.mem_singleton.1 hm] at hk
      simp [DlElem.isGrantOrAck] at hk
  | takeRa t ssi =>
    simp only [Sched.step, Sched.takeRa] at h
    rw [Out.bind_eq_ok] at h; obtain ⟨r, hr, h⟩ := h
    rw [Out.bind_eq_ok] at hr; obtain ⟨j, hj, hr⟩ := hr
    cases hr
    cases h
    exact same _ (by simp) rfl
  | voice t b =>
    simp only [Sched.step] at h
    rw [Out.bind_eq_ok] at h; obtain ⟨r, hr, h⟩ := h
    cases h
    exact same _ (by simp) rfl
  | create d c =>
    simp only [Sched.step] at h
    rw [Out.bind_eq_ok] at h; obtain ⟨r, hr, h⟩ := h
    cases h
    exact same _ (by simp) (by simp only [(unhang_same s c.ts).2.2.2.2.1])
  | close d t =>
    simp only [Sched.step] at h
    rw [Out.bind_eq_ok] at h; obtain ⟨r, hr, h⟩ := h
    cases h
    exact same _ (by simp) (by simp only [(unhang_same s t).2.2.2.2.1])
  | hang t active =>
    simp only [Sched.step, Out.ok.injEq, Prod.mk.injEq] at h
    obtain ⟨rfl, rfl⟩ := h
    unfold Sched.setHang at *
    cases hk : Slots.idx t with
    | panic => simp only [hk] at same; exact same _ (by simp) trivial
    | ok k =>
      simp only [hk] at same h2 ⊢
      cases active with
      | true => exact same _ (by simp) rfl
      | false =>
        simp only [Bool.false_eq_true, if_false, Sched.dropAll] at same h2 ⊢
        by_cases hi : i = k
        · subst hi
          simp only [Slots.upd_self] at h2 ⊢
          exact ⟨qgood_filter hq _, nothing_heard rfl ⟨fun e he => hm.holds e (List.mem_filter.1 he).1, hm.clean⟩⟩
        · exact same _ (by simp) (Slots.upd_ne _ _ hi)
  | systemWide b =>
    simp only [Sched.step, Out.ok.injEq, Prod.mk.injEq] at h
    obtain ⟨rfl, rfl⟩ := h
    exact same _ (by simp) rfl

theorem srun_heard {es : List SchedEv} {s : Sched} (hs : SInv s) (hf : ∀ e ∈ es, e.Fine) {i : Fin 4}
    (hfit : ∀ e ∈ es, e.Fits (i.val + 1) want) (hown : ∀ e ∈ es, e.grants (i.val + 1) → own)
    {r : Sched × List (SchedEv × SchedRet)} (h : s.run es = .ok r)
    (hone : ∀ es1 es2 r1, es = es1 ++ es2 → s.run es1 = .ok r1 → (r1.1.queues i).countP DlElem.begun ≤ 1)
    (hq : QGood own want (s.queues i)) {m : UmacMs} (hm : InStep i m (s.queues i)) :
    Outcome (Risky own want) (fun y => Heard sc (told want (reportsOn (i.val + 1) r.2)) y.2) (m.run (listenOn (i.val + 1) sc r.2)) := by
  induction es generalizing s r m with
  | nil => cases h; exact .nil
  | cons e es ih =>
    obtain ⟨a, tr, h1, h2, h3⟩ := srun_cons h
    have hs1 := (step_track hs (hf e (by simp)) (s' := a.1) (ret := a.2) h1).1
    have c1 := hone [] (e :: es) (s, []) rfl rfl
    have c2 := hone [e] es (a.1, [(e, a.2)]) rfl (by simp [Sched.run, h1])
    obtain ⟨k1, k2⟩ := step_heard (sc := sc) hs (s' := a.1) (ret := a.2) h1 (hfit e (by simp)) (hown e (by simp)) hq c1 c2 hm
    rw [h3, listenOn_cons, reportsOn_cons, msRun_append]
    refine k2.bind (fun y hy => ?_)
    have := ih (r := (r.1, tr)) hs1 (fun e he => hf e (by simp [he])) (fun e he => hfit e (by simp [he]))
      (fun e he => hown e (by simp [he])) h2 (by
        intro es1 es2 r1 q1 q2
        exact hone (e :: es1) es2 (r1.1, (e, a.2) :: r1.2) (by rw [q1]; rfl) (by simp [Sched.run, h1, q2])) k1 hy.2
    refine this.bind (fun z hz => ?_)
    show Heard sc _ (y.2 ++ z.2)
    rw [told_append]
    exact hy.1.append hz

/-! ## Reports -/

def reportedRet : SchedRet → List Report
  | .sent x => x.reports
  | .dropped r => r
  | _ => []

theorem reported_cons (p : SchedEv × SchedRet) (tr : List (SchedEv × SchedRet)) :
    reported (p :: tr) = reportedRet p.2 ++ reported tr := by
  simp only [reported, List.flatMap_cons]
  cases p.2 <;> rfl

theorem told_about {rs : List Report} (h : ∀ id m, want id = some m → about id rs = []) : told want rs = [] := by
  unfold told
  rw [List.filterMap_eq_nil_iff]
  intro r hr
  cases r with
  | discarded _ => rfl
  | transmitted id =>
    simp only
    cases hw : want id with
    | none => rfl
    | some m =>
      have := h id m hw
      rw [about, List.filter_eq_nil_iff] at this
      have := this _ hr
      simp [Report.about] at this

theorem told_drop (q : List DlElem) : told want (q.flatMap DlElem.dropReports) = [] := by
  unfold told
  rw [List.filterMap_eq_nil_iff]
  intro r hr
  rw [List.mem_flatMap] at hr
  obtain ⟨e, _, h2⟩ := hr
  have key : ∀ o : Owner, r ∈ o.dropped → ∃ id, r = .discarded id := by
    intro o ho
    cases o with
    | internal => simp [Owner.dropped] at ho
    | msg id rep => cases rep <;> simp [Owner.dropped] at ho; exact ⟨id, ho⟩
  have : ∃ id, r = .discarded id := by
    cases e <;> simp only [DlElem.dropReports, List.not_mem_nil] at h2
    · exact key _ h2
    · exact key _ h2
  obtain ⟨id, rfl⟩ := this
  rfl

theorem told_hang (s : Sched) (t : Nat) (b : Bool) : told want (s.setHang t b).2 = [] := by
  unfold Sched.setHang
  cases Slots.idx t with
  | panic => rfl
  | ok i =>
    cases b with
    | true => rfl
    | false => simp only [Bool.false_eq_true, if_false, Sched.dropAll]; exact told_drop _

/-- The messages of a timeslot wait in no other queue. -/
def Apart (want : Nat → Option Wanted) (i : Fin 4) (s : Sched) : Prop :=
  ∀ id m, want id = some m → ∀ j, j ≠ i → here id (s.queues j) = []

theorem step_told {s s' : Sched} {ev : SchedEv} {ret : SchedRet} (hs : SInv s) (hf : ev.Fine) (h : s.step ev = .ok (s', ret))
    {i : Fin 4} (hfit : ev.Fits (i.val + 1) want) (ha : Apart want i s) :
    Apart want i s' ∧ told want (reportsRet (i.val + 1) ret) = told want (reportedRet ret) := by
  obtain ⟨_, ht⟩ := step_track hs hf h
  constructor
  · intro id m hw j hj
    by_cases hid : ev.id? = some id
    · cases ev with
      | message t id' rep pdu sdu =>
        simp only [SchedEv.id?, Option.some.injEq] at hid
        subst hid
        by_cases hti : t = i.val + 1
        · simp only [Sched.step, Sched.push] at h
          rw [Out.bind_eq_ok] at h; obtain ⟨r, hr, h⟩ := h
          rw [Out.bind_eq_ok] at hr; obtain ⟨k, hk, hr⟩ := hr
          cases hr
          cases h
          rw [Out.ofRes_eq_ok] at hk
          have := Slots.idx_ok.1 hk
          have hki : k = i := by apply Fin.ext; omega
          subst hki
          simp only [Slots.upd_ne _ _ hj]
          exact ha _ m hw j hj
        · simp only [SchedEv.Fits, if_neg hti] at hfit
          rw [hw] at hfit; cases hfit
      | steal t id' rep b =>
        simp only [SchedEv.id?, Option.some.injEq] at hid
        subst hid
        have : want id' = none := hfit
        rw [hw] at this; cases this
      | _ => simp [SchedEv.id?] at hid
    · exact (ht id hid i (ha id m hw)).1 j hj
  · cases ret with
    | none => rfl
    | grant _ => rfl
    | bool _ => rfl
    | dropped r =>
      have : told want r = [] := by
        cases ev with
        | hang t b =>
          simp only [Sched.step, Out.ok.injEq, Prod.mk.injEq, SchedRet.dropped.injEq] at h
          rw [← h.2]; exact told_hang s t b
        | tick => simp only [Sched.step] at h; rw [Out.bind_eq_ok] at h; obtain ⟨_, _, h⟩ := h; rw [Out.bind_eq_ok] at h; obtain ⟨_, _, h⟩ := h; cases h
        | systemWide b => simp [Sched.step] at h
        | _ => simp only [Sched.step] at h; rw [Out.bind_eq_ok] at h; obtain ⟨_, _, h⟩ := h; cases h
      show told want [] = told want r
      rw [this]; rfl
    | sent x =>
      by_cases hx : x.slot.ts.t = i.val + 1
      · simp [reportsRet, reportsAt, reportedRet, hx]
      · have hid : ev.id? = none := by
          cases ev with
          | message t id rep pdu sdu => simp only [Sched.step] at h; rw [Out.bind_eq_ok] at h; obtain ⟨_, _, h⟩ := h; cases h
          | steal t id rep b => simp only [Sched.step] at h; rw [Out.bind_eq_ok] at h; obtain ⟨_, _, h⟩ := h; cases h
          | _ => rfl
        simp only [reportsRet, reportsAt, reportedRet, hx, if_false]
        rw [told_about (fun id m hw => ((ht id (by simp [hid]) i (ha id m hw)).2.2 x rfl hx).2)]
        rfl

theorem srun_told {es : List SchedEv} {s : Sched} (hs : SInv s) (hf : ∀ e ∈ es, e.Fine) {i : Fin 4}
    (hfit : ∀ e ∈ es, e.Fits (i.val + 1) want) {r : Sched × List (SchedEv × SchedRet)} (h : s.run es = .ok r) (ha : Apart want i s) :
    told want (reportsOn (i.val + 1) r.2) = told want (reported r.2) := by
  induction es generalizing s r with
  | nil => cases h; rfl
  | cons e es ih =>
    obtain ⟨a, tr, h1, h2, h3⟩ := srun_cons h
    have hs1 := (step_track hs (hf e (by simp)) (s' := a.1) (ret := a.2) h1).1
    obtain ⟨k1, k2⟩ := step_told hs (hf e (by simp)) (s' := a.1) (ret := a.2) h1 (hfit e (by simp)) ha
    have := ih (r := (r.1, tr)) hs1 (fun e he => hf e (by simp [he])) (fun e he => hfit e (by simp [he])) h2 k1
    rw [h3, reportsOn_cons, reported_cons, told_append, told_append, k2, this]

end
end Verif.Umac
