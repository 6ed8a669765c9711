import Verif.Umac.UmacBs
import Verif.Umac.SchedView
/-!
# The calls the upper MAC makes

Whatever happens to the upper MAC, it reaches the scheduler and the reassembly only through their calls. So every
history of the upper MAC contains a history of the scheduler and one of the reassembly, and what was proved about those
applies.
-/
namespace Verif.Umac
open Verif.Tdma Verif.Codec

/-- From `s` to `s'` with the calls `cs` on the scheduler and `fs` on the reassembly. -/
structure Via (s : UmacBs) (cs : List (SchedEv × SchedRet)) (fs : List BsEv) (s' : UmacBs) : Prop where
  run : s.sched.run (cs.map Prod.fst) = .ok (s'.sched, cs)
  log : s'.log = s.log ++ cs
  defrag : ∃ os, s.defrag.run fs = .ok (s'.defrag, os)
  frags : s'.frags = s.frags ++ fs
  brew : s'.brew = s.brew
  carrier : s'.carrier = s.carrier

/-- Nothing else has changed. -/
structure Quiet (s s' : UmacBs) : Prop where
  now : s'.now = s.now
  wide : s'.wide = s.wide
  heard : s'.lastVoice = s.lastVoice

theorem drun_append {d d1 d2 : BsDefrag} {a b : List BsEv} {o1 o2 : List (Option DefragBuf)} (h1 : d.run a = .ok (d1, o1))
    (h2 : d1.run b = .ok (d2, o2)) : d.run (a ++ b) = .ok (d2, o1 ++ o2) := by
  induction a generalizing d o1 with
  | nil => cases h1; exact h2
  | cons e a ih =>
    simp only [BsDefrag.run] at h1
    rw [Res.bind_eq_ok] at h1; obtain ⟨q, e1, h1⟩ := h1
    rw [Res.bind_eq_ok] at h1; obtain ⟨r, e2, h1⟩ := h1
    cases h1
    simp only [List.cons_append, BsDefrag.run, e1, ih e2, Res.bind_ok]

theorem Via.refl (s : UmacBs) : Via s [] [] s := ⟨rfl, by simp, ⟨[], rfl⟩, by simp, rfl, rfl⟩

theorem Via.trans {s s1 s2 : UmacBs} {c1 c2 : List (SchedEv × SchedRet)} {f1 f2 : List BsEv} (h1 : Via s c1 f1 s1)
    (h2 : Via s1 c2 f2 s2) : Via s (c1 ++ c2) (f1 ++ f2) s2 := by
  obtain ⟨o1, e1⟩ := h1.defrag
  obtain ⟨o2, e2⟩ := h2.defrag
  exact ⟨by rw [List.map_append]; exact srun_glue h1.run h2.run, by rw [h2.log, h1.log, List.append_assoc],
    ⟨_, drun_append e1 e2⟩, by rw [h2.frags, h1.frags, List.append_assoc], h2.brew.trans h1.brew, h2.carrier.trans h1.carrier⟩

theorem Quiet.refl (s : UmacBs) : Quiet s s := ⟨rfl, rfl, rfl⟩

theorem Quiet.trans {s s1 s2 : UmacBs} (h1 : Quiet s s1) (h2 : Quiet s1 s2) : Quiet s s2 :=
  ⟨h2.now.trans h1.now, h2.wide.trans h1.wide, h2.heard.trans h1.heard⟩

/-- A change of what is neither scheduler nor reassembly. -/
theorem Via.after {s s1 s2 : UmacBs} {cs : List (SchedEv × SchedRet)} {fs : List BsEv} (h : Via s cs fs s1) (h1 : s2.sched = s1.sched)
    (h2 : s2.log = s1.log) (h3 : s2.defrag = s1.defrag) (h4 : s2.frags = s1.frags) (h5 : s2.brew = s1.brew)
    (h6 : s2.carrier = s1.carrier) : Via s cs fs s2 := by
  obtain ⟨r, l, d, f, b, c⟩ := h
  exact ⟨by rw [h1]; exact r, h2.trans l, by rw [h3]; exact d, h4.trans f, h5.trans b, h6.trans c⟩

theorem call_via {s s' : UmacBs} {e : SchedEv} {r : SchedRet} (h : s.call e = .ok (s', r)) :
    Via s [(e, r)] [] s' ∧ Quiet s s' := by
  unfold UmacBs.call at h
  rw [Out.bind_eq_ok] at h; obtain ⟨q, h1, h⟩ := h
  cases h
  exact ⟨⟨by simp [Sched.run, h1], rfl, ⟨[], rfl⟩, by simp, rfl, rfl⟩, ⟨rfl, rfl, rfl⟩⟩

theorem frag_via {s s' : UmacBs} {e : BsEv} {o : Option DefragBuf} (h : s.frag e = .ok (s', o)) :
    Via s [] [e] s' ∧ Quiet s s' := by
  unfold UmacBs.frag at h
  rw [Out.bind_eq_ok] at h; obtain ⟨q, h1, h⟩ := h
  cases h
  rw [Out.ofRes_eq_ok] at h1
  exact ⟨⟨rfl, by simp, ⟨[q.2], by simp [BsDefrag.run, h1]⟩, rfl, rfl, rfl⟩, ⟨rfl, rfl, rfl⟩⟩

/-! ## Uplink blocks -/

/-- The calls made on the scheduler for an uplink block: on the timeslot of the block. -/
def RxCall (t : Nat) : SchedEv → Prop
  | .ack t' _ => t' = t
  | .capReq t' _ _ => t' = t
  | .grant t' _ _ => t' = t
  | _ => False

/-- From `s` to `s'` while an uplink block on timeslot `t` is received. -/
def Rx1 (t : Nat) (s s' : UmacBs) : Prop := ∃ cs fs, Via s cs fs s' ∧ Quiet s s' ∧ ∀ p ∈ cs, RxCall t p.1

theorem Rx1.refl (t : Nat) (s : UmacBs) : Rx1 t s s := ⟨[], [], .refl s, .refl s, by simp⟩

theorem Rx1.trans {t : Nat} {s s1 s2 : UmacBs} (h1 : Rx1 t s s1) (h2 : Rx1 t s1 s2) : Rx1 t s s2 := by
  obtain ⟨c1, f1, v1, q1, k1⟩ := h1
  obtain ⟨c2, f2, v2, q2, k2⟩ := h2
  refine ⟨_, _, v1.trans v2, q1.trans q2, ?_⟩
  intro p hp
  rcases List.mem_append.1 hp with hp | hp
  · exact k1 p hp
  · exact k2 p hp

theorem Rx1.call {t : Nat} {s s' : UmacBs} {e : SchedEv} {r : SchedRet} (h : s.call e = .ok (s', r)) (he : RxCall t e) : Rx1 t s s' :=
  ⟨_, _, (call_via h).1, (call_via h).2, by simpa using he⟩

theorem Rx1.frag {t : Nat} {s s' : UmacBs} {e : BsEv} {o : Option DefragBuf} (h : s.frag e = .ok (s', o)) : Rx1 t s s' :=
  ⟨_, _, (frag_via h).1, (frag_via h).2, by simp⟩

theorem reserve_rx {s s' : UmacBs} {t : Nat} {a : Addr} {code : Option Nat} (h : s.reserve t a code = .ok s') : Rx1 t s s' := by
  cases code with
  | none => cases h; exact .refl t s
  | some code =>
    simp only [UmacBs.reserve] at h
    rw [Out.bind_eq_ok] at h; obtain ⟨r, h1, h⟩ := h
    have k1 : Rx1 t s r.1 := .call (r := r.2) h1 rfl
    split at h
    · rw [Out.bind_eq_ok] at h; obtain ⟨q, h2, h⟩ := h
      cases h
      exact k1.trans (.call (r := q.2) h2 rfl)
    · cases h; exact k1

theorem firstOrWhole_rx {s s' : UmacBs} {c : UlCtx} {a : Addr} {frag : Bool} {sdu : List Bool} {out : List UmacOut}
    (h : s.firstOrWhole c a frag sdu = .ok (s', out)) : Rx1 c.x.t s s' := by
  unfold UmacBs.firstOrWhole at h
  cases frag with
  | false => cases h; exact .refl _ s
  | true =>
    simp only [if_true] at h
    rw [Out.bind_eq_ok] at h; obtain ⟨r, h1, h⟩ := h
    cases h
    exact .frag (o := r.2) h1

theorem rxData_rx {s : UmacBs} {c : UlCtx} {bits : List Bool} {r : UmacBs × List UmacOut × Option (List Bool)}
    (h : s.rxData c bits = .ok r) : Rx1 c.x.t s r.1 := by
  unfold UmacBs.rxData at h
  split at h
  · cases h; exact .refl _ s
  · cases h
  · split at h
    · cases h; exact .refl _ s
    · split at h
      · cases h
      · rw [Out.bind_eq_ok] at h; obtain ⟨k, _, h⟩ := h
        rw [Out.bind_eq_ok] at h; obtain ⟨sdu, _, h⟩ := h
        dsimp only at h
        by_cases h0 : k.2.2.2 = true
        · rw [if_pos h0] at h; cases h; exact .refl _ s
        · rw [if_neg h0] at h
          by_cases h3 : (‹MacData›).encrypted = true
          · rw [if_pos h3] at h; cases h; exact .refl _ s
          · rw [if_neg h3, Out.bind_eq_ok] at h; obtain ⟨s1, h1, h⟩ := h
            rw [Out.bind_eq_ok] at h; obtain ⟨q, h2, h⟩ := h
            cases h
            exact (reserve_rx h1).trans (firstOrWhole_rx (out := q.2) h2)

theorem rxAccess_rx {s : UmacBs} {c : UlCtx} {bits : List Bool} {r : UmacBs × List UmacOut × Option (List Bool)}
    (h : s.rxAccess c bits = .ok r) : Rx1 c.x.t s r.1 := by
  unfold UmacBs.rxAccess at h
  split at h
  · cases h; exact .refl _ s
  · cases h
  · split at h
    · cases h; exact .refl _ s
    · split at h
      · cases h
      · rw [Out.bind_eq_ok] at h; obtain ⟨sdu, _, h⟩ := h
        split at h
        · cases h; exact .refl _ s
        · rw [Out.bind_eq_ok] at h; obtain ⟨s1, h1, h⟩ := h
          have k1 : Rx1 c.x.t s s1.1 := .call (r := s1.2) h1 rfl
          split at h
          · cases h; exact k1
          · rw [Out.bind_eq_ok] at h; obtain ⟨s2, h2, h⟩ := h
            have k2 := k1.trans (reserve_rx h2)
            simp only at h
            split at h
            · cases h; exact k2
            · rw [Out.bind_eq_ok] at h; obtain ⟨q, h3, h⟩ := h
              cases h
              exact k2.trans (firstOrWhole_rx (out := q.2) h3)

theorem rxFrag_rx {s : UmacBs} {c : UlCtx} {bits : List Bool} {r : UmacBs × List UmacOut × Option (List Bool)}
    (h : s.rxFrag c bits = .ok r) : Rx1 c.x.t s r.1 := by
  unfold UmacBs.rxFrag at h
  split at h
  · cases h; exact .refl _ s
  · cases h
  · rw [Out.bind_eq_ok] at h; obtain ⟨sdu, _, h⟩ := h
    rw [Out.bind_eq_ok] at h; obtain ⟨o, _, h⟩ := h
    split at h
    · cases h; exact .refl _ s
    · rw [Out.bind_eq_ok] at h; obtain ⟨q, h1, h⟩ := h
      cases h
      exact .frag (o := q.2) h1

theorem rxEnd_rx {s : UmacBs} {c : UlCtx} {bits : List Bool} {pos : Nat} {fill : Bool} {l v : Option Nat}
    {r : UmacBs × List UmacOut × Option (List Bool)} (h : s.rxEnd c bits pos fill l v = .ok r) : Rx1 c.x.t s r.1 := by
  unfold UmacBs.rxEnd at h
  rw [Out.bind_eq_ok] at h; obtain ⟨sdu, _, h⟩ := h
  rw [Out.bind_eq_ok] at h; obtain ⟨o, _, h⟩ := h
  split at h
  · cases h; exact .refl _ s
  · rw [Out.bind_eq_ok] at h; obtain ⟨q, h1, h⟩ := h
    have k1 : Rx1 c.x.t s q.1 := .frag (o := q.2) h1
    split at h
    · cases h; exact k1
    · rw [Out.bind_eq_ok] at h; obtain ⟨s2, h2, h⟩ := h
      cases h
      exact k1.trans (reserve_rx h2)

theorem rxPdu_rx {s : UmacBs} {c : UlCtx} {bits : List Bool} {r : UmacBs × List UmacOut × Option (List Bool)}
    (h : s.rxPdu c bits = .ok r) : Rx1 c.x.t s r.1 := by
  have hu : s.rxEndUl c bits = .ok r → Rx1 c.x.t s r.1 := by
    intro h
    unfold UmacBs.rxEndUl at h
    split at h
    · cases h; exact .refl _ s
    · cases h
    · exact rxEnd_rx h
  have hh : s.rxEndHu c bits = .ok r → Rx1 c.x.t s r.1 := by
    intro h
    unfold UmacBs.rxEndHu at h
    split at h
    · cases h; exact .refl _ s
    · cases h
    · split at h
      · cases h; exact .refl _ s
      · exact rxEnd_rx h
  have hs : s.rxSignal c bits = .ok r → Rx1 c.x.t s r.1 := by
    intro h
    unfold UmacBs.rxSignal at h
    split at h <;> cases h <;> exact .refl _ s
  have hb : s.rxBlck bits = .ok r → Rx1 c.x.t s r.1 := by
    intro h
    unfold UmacBs.rxBlck at h
    split at h <;> cases h
    exact .refl _ s
  unfold UmacBs.rxPdu at h
  split at h
  · by_cases h1 : c.chan = .schHu
    · rw [if_pos h1] at h
      split at h
      · exact hh h
      · exact rxAccess_rx h
    · rw [if_neg h1] at h
      split at h
      · split at h
        · exact rxData_rx h
        · split at h
          · exact hu h
          · exact rxFrag_rx h
      · split at h
        · cases h; exact .refl _ s
        · split at h
          · exact hs h
          · split at h
            · cases h; exact .refl _ s
            · exact hb h
  · cases h; exact .refl _ s

theorem rxLoop_rx {n : Nat} {s s' : UmacBs} {c : UlCtx} {bits : List Bool} {out : List UmacOut}
    (h : UmacBs.rxLoop n s c bits = .ok (s', out)) : Rx1 c.x.t s s' := by
  induction n generalizing s bits out with
  | zero => cases h; exact .refl _ _
  | succ n ih =>
    simp only [UmacBs.rxLoop] at h
    rw [Out.bind_eq_ok] at h; obtain ⟨r, h1, h⟩ := h
    have k1 := rxPdu_rx h1
    split at h
    · cases h; exact k1
    · split at h
      · rw [Out.bind_eq_ok] at h; obtain ⟨q, h2, h⟩ := h
        cases h
        exact k1.trans (ih (out := q.2) h2)
      · cases h; exact k1

theorem rxBlock_rx {s s' : UmacBs} {c : UlCtx} {bits : List Bool} {out : List UmacOut}
    (h : s.rxBlock c bits = .ok (s', out)) : Rx1 c.x.t s s' := by
  unfold UmacBs.rxBlock at h
  split at h
  · exact rxLoop_rx h
  · cases h

/-! ## The other events -/

theorem heard_after {s s1 : UmacBs} {cs : List (SchedEv × SchedRet)} {fs : List BsEv} (h : Via s cs fs s1) (ts : Nat) (x : Option Time) :
    Via s cs fs (s1.heard ts x) := by
  unfold UmacBs.heard
  split
  · exact h.after rfl rfl rfl rfl rfl rfl
  · exact h

theorem heard_now (s : UmacBs) (ts : Nat) (x : Option Time) : (s.heard ts x).now = s.now := by
  unfold UmacBs.heard
  split <;> rfl

theorem heard_wide (s : UmacBs) (ts : Nat) (x : Option Time) : (s.heard ts x).wide = s.wide := by
  unfold UmacBs.heard
  split <;> rfl

theorem heard_sched (s : UmacBs) (ts : Nat) (x : Option Time) : (s.heard ts x).sched = s.sched := by
  unfold UmacBs.heard
  split <;> rfl

theorem heard_last (s : UmacBs) (ts : Nat) (x : Option Time) (i : Fin 4) :
    (s.heard ts x).lastVoice i = if ts = i.val + 1 then x else s.lastVoice i := by
  unfold UmacBs.heard
  cases hk : Slots.idx ts with
  | panic =>
    rw [if_neg]
    intro h
    rw [Slots.idx_ok.2 h] at hk
    cases hk
  | ok k => exact upd_if _ hk _ i

/-- The calls an event makes on the scheduler. -/
def Caused (s : UmacBs) : UmacEv → List SchedEv → Prop
  | .tick w, es => es = (if w = s.wide then [] else [.systemWide w]) ++ [.tick]
  | .block c _, es => ∀ e ∈ es, RxCall c.x.t e
  | .request q, es =>
    (∃ ts b, (if q.steal then s.stealTs q.chan else none) = some ts ∧ es = [.takeRa ts q.addr.ssi, .steal ts q.id q.reported b]) ∨
    (∃ p, (if q.steal then s.stealTs q.chan else none) = none ∧ es = [.message q.x.t q.id q.reported p q.sdu])
  | .voiceDown ts b, es => es = [] ∨ es = [.voice ts b]
  | .voiceUp ts data, es => es = [] ∨ ∃ b, packVoice data = some b ∧ es = [.voice ts b]
  | .control (.open c), es => ∃ k : Dir → Bool, es = (Dir.split c.direction).flatMap fun d =>
      (if k d then [SchedEv.close d c.ts] else []) ++ [.create d { c with direction := d }]
  | .control (.close d ts), es => es = (Dir.split d).map fun d => .close d ts
  | .control (.released ts), es => es = [.hang ts true]
  | .control (.granted ts), es => es = [.hang ts false]
  | .control (.ended ts), es => es = [.hang ts false]

theorem openOne_via {s s' : UmacBs} {c : Circuit} {d : Dir} (h : s.openOne c d = .ok s') :
    ∃ (k : Bool) (rs : List (SchedEv × SchedRet)), Via s rs [] s' ∧
      rs.map Prod.fst = (if k then [SchedEv.close d c.ts] else []) ++ [.create d { c with direction := d }] ∧
      s'.now = s.now ∧ s'.wide = s.wide ∧
      ∀ i : Fin 4, s'.lastVoice i = if d = .ul ∧ c.ts = i.val + 1 then some s.now else s.lastVoice i := by
  unfold UmacBs.openOne at h
  rw [Out.bind_eq_ok] at h; obtain ⟨k, _, h⟩ := h
  have key : ∃ (s1 : UmacBs) (q : UmacBs × SchedRet) (rs : List (SchedEv × SchedRet)), Via s rs [] s1 ∧ Quiet s s1 ∧
      rs.map Prod.fst = (if k then [SchedEv.close d c.ts] else []) ∧ s1.call (.create d { c with direction := d }) = .ok q ∧
      s' = (if d = .ul then q.1.heard c.ts (some s1.now) else q.1) := by
    cases k with
    | false =>
      simp only [Bool.false_eq_true, if_false, Out.bind_ok] at h
      rw [Out.bind_eq_ok] at h; obtain ⟨q, h2, h⟩ := h
      cases h
      exact ⟨s, q, [], .refl s, .refl s, rfl, h2, rfl⟩
    | true =>
      simp only [if_true] at h
      rw [Out.bind_eq_ok] at h; obtain ⟨r, h1, h⟩ := h
      rw [Out.bind_ok, Out.bind_eq_ok] at h; obtain ⟨q, h2, h⟩ := h
      cases h
      exact ⟨r.1, q, _, (call_via (r := r.2) h1).1, (call_via (r := r.2) h1).2, rfl, h2, rfl⟩
  obtain ⟨s1, q, rs, v1, q1, e1, h2, rfl⟩ := key
  obtain ⟨v2, q2⟩ := call_via (r := q.2) (s' := q.1) h2
  have v := v1.trans v2
  have qq := q1.trans q2
  refine ⟨k, rs ++ [(.create d { c with direction := d }, q.2)], ?_, by simp [e1], ?_, ?_, ?_⟩
  · by_cases hd : d = .ul
    · rw [if_pos hd]; exact heard_after v _ _
    · rw [if_neg hd]; exact v
  · by_cases hd : d = .ul
    · rw [if_pos hd, heard_now]; exact qq.now
    · rw [if_neg hd]; exact qq.now
  · by_cases hd : d = .ul
    · rw [if_pos hd, heard_wide]; exact qq.wide
    · rw [if_neg hd]; exact qq.wide
  · intro i
    by_cases hd : d = .ul
    · rw [if_pos hd, heard_last, qq.heard, q1.now]; simp [hd]
    · rw [if_neg hd, qq.heard]; simp [hd]

theorem closeOne_via {s s' : UmacBs} {ts : Nat} {d : Dir} (h : s.closeOne ts d = .ok s') :
    ∃ r, Via s [(.close d ts, r)] [] s' ∧ s'.now = s.now ∧ s'.wide = s.wide ∧
      ∀ i : Fin 4, s'.lastVoice i = if d = .ul ∧ r = .bool true ∧ ts = i.val + 1 then none else s.lastVoice i := by
  unfold UmacBs.closeOne at h
  rw [Out.bind_eq_ok] at h; obtain ⟨q, h1, h⟩ := h
  cases h
  obtain ⟨v, qq⟩ := call_via (r := q.2) (s' := q.1) h1
  by_cases hc : d = .ul ∧ q.2 = .bool true
  · rw [if_pos hc]
    refine ⟨q.2, heard_after v _ _, by rw [heard_now]; exact qq.now, by rw [heard_wide]; exact qq.wide, fun i => ?_⟩
    rw [heard_last, qq.heard]
    simp [hc.1, hc.2]
  · rw [if_neg hc]
    refine ⟨q.2, v, qq.now, qq.wide, fun i => ?_⟩
    rw [qq.heard, if_neg (fun h => hc ⟨h.1, h.2.1⟩)]

theorem hang_via {s s' : UmacBs} {ts : Nat} {b : Bool} {x : Option Time}
    (h : (s.call (.hang ts b) >>= fun r => Out.ok (r.1.heard ts x)) = .ok s') :
    ∃ r, Via s [(.hang ts b, r)] [] s' ∧ s'.now = s.now ∧ s'.wide = s.wide ∧
      ∀ i : Fin 4, s'.lastVoice i = if ts = i.val + 1 then x else s.lastVoice i := by
  rw [Out.bind_eq_ok] at h; obtain ⟨q, h1, h⟩ := h
  cases h
  obtain ⟨v, qq⟩ := call_via (r := q.2) (s' := q.1) h1
  exact ⟨q.2, heard_after v _ _, by rw [heard_now]; exact qq.now, by rw [heard_wide]; exact qq.wide,
    fun i => by rw [heard_last, qq.heard]⟩

theorem control_via {s s' : UmacBs} {m : MacCtl} (h : s.control m = .ok s') :
    ∃ cs, Via s cs [] s' ∧ Caused s (.control m) (cs.map Prod.fst) ∧ s'.now = s.now ∧ s'.wide = s.wide := by
  cases m with
  | «open» c =>
    simp only [UmacBs.control, Dir.split] at h
    cases hd : c.direction with
    | none =>
      simp only [hd, List.foldlM_nil, Out.pure_eq, Out.ok.injEq] at h
      subst h
      exact ⟨[], .refl s, ⟨fun _ => false, by simp [hd, Dir.split]⟩, rfl, rfl⟩
    | dl =>
      simp only [hd, List.foldlM_cons, List.foldlM_nil, Out.pure_eq] at h
      rw [Out.bind_eq_ok] at h; obtain ⟨s1, h1, h⟩ := h
      cases h
      obtain ⟨k, rs, v, e, n, w, _⟩ := openOne_via h1
      exact ⟨rs, v, ⟨fun _ => k, by simp [hd, Dir.split, e]⟩, n, w⟩
    | ul =>
      simp only [hd, List.foldlM_cons, List.foldlM_nil, Out.pure_eq] at h
      rw [Out.bind_eq_ok] at h; obtain ⟨s1, h1, h⟩ := h
      cases h
      obtain ⟨k, rs, v, e, n, w, _⟩ := openOne_via h1
      exact ⟨rs, v, ⟨fun _ => k, by simp [hd, Dir.split, e]⟩, n, w⟩
    | both =>
      simp only [hd, List.foldlM_cons, List.foldlM_nil, Out.pure_eq] at h
      rw [Out.bind_eq_ok] at h; obtain ⟨s1, h1, h⟩ := h
      rw [Out.bind_eq_ok] at h; obtain ⟨s2, h2, h⟩ := h
      cases h
      obtain ⟨k, rs, v, e, n, w, _⟩ := openOne_via h1
      obtain ⟨k', rs', v', e', n', w', _⟩ := openOne_via h2
      refine ⟨rs ++ rs', v.trans v', ⟨fun d => if d = .dl then k else k', ?_⟩, n'.trans n, w'.trans w⟩
      simp [hd, Dir.split, e, e']
  | close d ts =>
    simp only [UmacBs.control, Dir.split] at h
    cases d with
    | none =>
      simp only [List.foldlM_nil, Out.pure_eq, Out.ok.injEq] at h
      subst h
      exact ⟨[], .refl s, rfl, rfl, rfl⟩
    | dl =>
      simp only [List.foldlM_cons, List.foldlM_nil, Out.pure_eq] at h
      rw [Out.bind_eq_ok] at h; obtain ⟨s1, h1, h⟩ := h
      cases h
      obtain ⟨r, v, n, w, _⟩ := closeOne_via h1
      exact ⟨_, v, rfl, n, w⟩
    | ul =>
      simp only [List.foldlM_cons, List.foldlM_nil, Out.pure_eq] at h
      rw [Out.bind_eq_ok] at h; obtain ⟨s1, h1, h⟩ := h
      cases h
      obtain ⟨r, v, n, w, _⟩ := closeOne_via h1
      exact ⟨_, v, rfl, n, w⟩
    | both =>
      simp only [List.foldlM_cons, List.foldlM_nil, Out.pure_eq] at h
      rw [Out.bind_eq_ok] at h; obtain ⟨s1, h1, h⟩ := h
      rw [Out.bind_eq_ok] at h; obtain ⟨s2, h2, h⟩ := h
      cases h
      obtain ⟨r, v, n, w, _⟩ := closeOne_via h1
      obtain ⟨r', v', n', w', _⟩ := closeOne_via h2
      exact ⟨_, v.trans v', rfl, n'.trans n, w'.trans w⟩
  | released ts =>
    obtain ⟨r, v, n, w, _⟩ := hang_via h
    exact ⟨_, v, rfl, n, w⟩
  | granted ts =>
    obtain ⟨r, v, n, w, _⟩ := hang_via h
    exact ⟨_, v, rfl, n, w⟩
  | ended ts =>
    obtain ⟨r, v, n, w, _⟩ := hang_via h
    exact ⟨_, v, rfl, n, w⟩

theorem request_via {s s' : UmacBs} {q : TmaReq} (h : s.request q = .ok s') :
    ∃ cs, Via s cs [] s' ∧ Quiet s s' ∧ Caused s (.request q) (cs.map Prod.fst) := by
  unfold UmacBs.request at h
  split at h
  · rename_i ts hts
    rw [Out.bind_eq_ok] at h; obtain ⟨r, h1, h⟩ := h
    rw [Out.bind_eq_ok] at h; obtain ⟨b, _, h⟩ := h
    rw [Out.bind_eq_ok] at h; obtain ⟨r', h2, h⟩ := h
    cases h
    obtain ⟨v1, q1⟩ := call_via (r := r.2) (s' := r.1) h1
    obtain ⟨v2, q2⟩ := call_via (r := r'.2) (s' := r'.1) h2
    exact ⟨_, v1.trans v2, q1.trans q2, Or.inl ⟨ts, b, hts, rfl⟩⟩
  · rename_i hts
    unfold UmacBs.signal at h
    rw [Out.bind_eq_ok] at h; obtain ⟨p, _, h⟩ := h
    rw [Out.bind_eq_ok] at h; obtain ⟨r, h1, h⟩ := h
    cases h
    obtain ⟨v1, q1⟩ := call_via (r := r.2) (s' := r.1) h1
    exact ⟨_, v1, q1, Or.inr ⟨p.1, hts, rfl⟩⟩

theorem voiceDown_via {s s' : UmacBs} {ts : Nat} {b : Block} (h : s.voiceDown ts b = .ok s') :
    ∃ cs, Via s cs [] s' ∧ Caused s (.voiceDown ts b) (cs.map Prod.fst) ∧ s'.now = s.now ∧ s'.wide = s.wide ∧
      ∃ ul, s.sched.circuits.isActive .ul ts = .ok ul ∧
        ∀ i : Fin 4, s'.lastVoice i = if ul = true ∧ ts = i.val + 1 then some s.now else s.lastVoice i := by
  unfold UmacBs.voiceDown at h
  rw [Out.bind_eq_ok] at h; obtain ⟨dl, _, h⟩ := h
  rw [Out.bind_eq_ok] at h; obtain ⟨ul, hul, h⟩ := h
  rw [Out.ofRes_eq_ok] at hul
  have k : ∃ s1 : UmacBs, s1 = (if ul then s.heard ts (some s.now) else s) ∧ Via s [] [] s1 ∧ s1.now = s.now ∧ s1.wide = s.wide ∧
      ∀ i : Fin 4, s1.lastVoice i = if ul = true ∧ ts = i.val + 1 then some s.now else s.lastVoice i := by
    refine ⟨_, rfl, ?_⟩
    cases ul with
    | false => exact ⟨.refl s, rfl, rfl, fun i => by simp⟩
    | true => exact ⟨heard_after (.refl s) _ _, heard_now .., heard_wide .., fun i => by simp [heard_last]⟩
  obtain ⟨s1, e, v, n, w, l⟩ := k
  simp only [← e] at h
  cases dl with
  | false =>
    simp only [Bool.false_eq_true, if_false] at h
    cases h
    exact ⟨[], v, Or.inl rfl, n, w, ul, hul, l⟩
  | true =>
    simp only [if_true] at h
    rw [Out.bind_eq_ok] at h; obtain ⟨r, h1, h⟩ := h
    cases h
    obtain ⟨v1, q1⟩ := call_via (r := r.2) (s' := r.1) h1
    exact ⟨_, v.trans v1, Or.inr rfl, q1.now.trans n, q1.wide.trans w, ul, hul, fun i => by rw [q1.heard]; exact l i⟩

theorem voiceUp_via {s s' : UmacBs} {ts : Nat} {data : List Nat} {out : List UmacOut} (h : s.voiceUp ts data = .ok (s', out)) :
    ∃ cs, Via s cs [] s' ∧ Caused s (.voiceUp ts data) (cs.map Prod.fst) ∧ s'.now = s.now ∧ s'.wide = s.wide ∧
      (∀ i : Fin 4, s'.lastVoice i = if ts = i.val + 1 then some s.now else s.lastVoice i) ∧
      ∃ ul, s.sched.circuits.isActive .ul ts = .ok ul ∧ out = if s.brew && ul then [UmacOut.voice ts data] else [] := by
  unfold UmacBs.voiceUp at h
  rw [Out.bind_eq_ok] at h; obtain ⟨dl, _, h⟩ := h
  rw [Out.bind_eq_ok] at h; obtain ⟨ul, hul, h⟩ := h
  rw [Out.ofRes_eq_ok] at hul
  have v : Via s [] [] (s.heard ts (some s.now)) := heard_after (.refl s) _ _
  have hb : (s.heard ts (some s.now)).brew = s.brew := v.brew
  simp only [hb] at h
  split at h
  · rename_i b hpk
    rw [Out.bind_eq_ok] at h; obtain ⟨r, h1, h⟩ := h
    cases h
    obtain ⟨v1, q1⟩ := call_via (r := r.2) (s' := r.1) h1
    refine ⟨_, v.trans v1, Or.inr ⟨b, ?_, rfl⟩, by rw [q1.now, heard_now], by rw [q1.wide, heard_wide], ?_, ul, hul, rfl⟩
    · cases dl with
      | false => simp at hpk
      | true => simpa using hpk
    · intro i; rw [q1.heard, heard_last]
  · cases h
    exact ⟨[], v, Or.inl rfl, heard_now .., heard_wide .., fun i => heard_last .., ul, hul, rfl⟩

theorem tick_via {s s' : UmacBs} {w : Bool} {out : List UmacOut} (h : s.tick w = .ok (s', out)) :
    ∃ cs, Via s cs [] s' ∧ Caused s (.tick w) (cs.map Prod.fst) ∧ s.now.addTimeslots 1 = .ok s'.now ∧ s'.wide = w ∧
      (∀ i, s'.lastVoice i = if ({ s with now := s'.now } : UmacBs).silent i then none else s.lastVoice i) ∧
      ∃ r, cs.getLast? = some (.tick, r) ∧
        out = (((List.finRange 4).filter ({ s with now := s'.now } : UmacBs).silent).map fun i => UmacOut.inactive (i.val + 1)) ++
          (match r with | .sent o => [UmacOut.slot o] | _ => []) := by
  unfold UmacBs.tick at h
  rw [Out.bind_eq_ok] at h; obtain ⟨now, hnow, h⟩ := h
  rw [Out.ofRes_eq_ok] at hnow
  have key : ∃ (s1 : UmacBs) (cs : List (SchedEv × SchedRet)) (q : UmacBs × SchedRet), Via s cs [] s1 ∧ s1.now = now ∧ s1.wide = w ∧
      s1.lastVoice = s.lastVoice ∧ s1.sched.circuits = s.sched.circuits ∧ s1.sched.hang = s.sched.hang ∧
      cs.map Prod.fst = (if w = s.wide then [] else [.systemWide w]) ∧ s1.checkSilent.1.call .tick = .ok q ∧ s' = q.1 ∧
      out = s1.checkSilent.2 ++ match q.2 with | .sent o => [UmacOut.slot o] | _ => [] := by
    by_cases hw : w = s.wide
    · simp only [hw, if_true, Out.bind_ok] at h
      rw [Out.bind_eq_ok] at h; obtain ⟨q, h1, h⟩ := h
      cases h
      exact ⟨{ s with now := now }, [], q, (Via.refl s).after rfl rfl rfl rfl rfl rfl, rfl, hw.symm, rfl, rfl, rfl, by simp [hw],
        h1, rfl, rfl⟩
    · simp only [hw, if_false] at h
      rw [Out.bind_eq_ok] at h; obtain ⟨r, h0, h⟩ := h
      rw [Out.bind_ok, Out.bind_eq_ok] at h; obtain ⟨q, h1, h⟩ := h
      cases h
      obtain ⟨v1, q1⟩ := call_via (r := r.2) (s' := r.1) h0
      have hs : r.1.sched.circuits = s.sched.circuits ∧ r.1.sched.hang = s.sched.hang := by
        unfold UmacBs.call at h0
        rw [Out.bind_eq_ok] at h0; obtain ⟨u, e1, h0⟩ := h0
        cases h0
        cases e1
        exact ⟨rfl, rfl⟩
      refine ⟨{ r.1 with wide := w }, [(.systemWide w, r.2)], q, (((Via.refl s).after (s2 := { s with now := now }) rfl rfl rfl rfl rfl rfl).trans v1).after
        rfl rfl rfl rfl rfl rfl, q1.now, rfl, q1.heard, hs.1, hs.2, by simp [hw], h1, rfl, rfl⟩
  obtain ⟨s1, cs, q, v, n, w', l, hcirc, hhang, e, h1, rfl, rfl⟩ := key
  obtain ⟨v1, q1⟩ := call_via (r := q.2) (s' := q.1) h1
  have hn : q.1.now = now := by rw [q1.now]; exact n
  have hsil : ∀ i, s1.silent i = ({ s with now := now } : UmacBs).silent i := by
    intro i; simp only [UmacBs.silent, n, l, hcirc, hhang]
  have hv : Via s cs [] s1.checkSilent.1 := v.after rfl rfl rfl rfl rfl rfl
  refine ⟨_, hv.trans v1, by simp [Caused, e], by rw [hn]; exact hnow, by rw [q1.wide]; exact w', fun i => ?_, q.2, by simp, ?_⟩
  · rw [q1.heard, hn]
    simp only [UmacBs.checkSilent, hsil, l]
  · rw [hn]
    simp only [UmacBs.checkSilent]
    congr 2
    exact List.filter_congr (fun i _ => hsil i)

theorem step_via {s s' : UmacBs} {e : UmacEv} {out : List UmacOut} (h : s.step e = .ok (s', out)) :
    ∃ cs fs, Via s cs fs s' ∧ Caused s e (cs.map Prod.fst) := by
  cases e with
  | tick w => obtain ⟨cs, v, c, _⟩ := tick_via h; exact ⟨cs, [], v, c⟩
  | block c bits =>
    obtain ⟨cs, fs, v, _, k⟩ := rxBlock_rx h
    refine ⟨cs, fs, v, ?_⟩
    intro e he
    obtain ⟨p, hp, rfl⟩ := List.mem_map.1 he
    exact k p hp
  | request q =>
    simp only [UmacBs.step] at h
    rw [Out.bind_eq_ok] at h; obtain ⟨s1, h1, h⟩ := h
    cases h
    obtain ⟨cs, v, _, c⟩ := request_via h1
    exact ⟨cs, [], v, c⟩
  | voiceDown ts b =>
    simp only [UmacBs.step] at h
    rw [Out.bind_eq_ok] at h; obtain ⟨s1, h1, h⟩ := h
    cases h
    obtain ⟨cs, v, c, _⟩ := voiceDown_via h1
    exact ⟨cs, [], v, c⟩
  | voiceUp ts data => obtain ⟨cs, v, c, _⟩ := voiceUp_via h; exact ⟨cs, [], v, c⟩
  | control m =>
    simp only [UmacBs.step] at h
    rw [Out.bind_eq_ok] at h; obtain ⟨s1, h1, h⟩ := h
    cases h
    obtain ⟨cs, v, c, _⟩ := control_via h1
    exact ⟨cs, [], v, c⟩

/-! ## Histories -/

theorem run_via {s0 s : UmacBs} {h : List (UmacEv × List UmacOut)} (hr : UmacRun s0 h s) : ∃ cs fs, Via s0 cs fs s := by
  induction hr with
  | init => exact ⟨_, _, .refl _⟩
  | step _ hst ih =>
    obtain ⟨c1, f1, v1⟩ := ih
    obtain ⟨c2, f2, v2, _⟩ := step_via hst
    exact ⟨_, _, v1.trans v2⟩

/-- The calls made on the scheduler are a history of the scheduler, and the same for the reassembly. -/
theorem run_log {brew : Bool} {carrier : Nat} {x : Time} {scramb : Nat} {wide : Bool} {pre : Precomps} {s : UmacBs}
    {h : List (UmacEv × List UmacOut)} (hr : UmacRun (.init brew carrier x scramb wide pre) h s) :
    (Sched.init x scramb pre).run (s.log.map Prod.fst) = .ok (s.sched, s.log) ∧ (∃ os, BsDefrag.new.run s.frags = .ok (s.defrag, os)) ∧
    s.brew = brew ∧ s.carrier = carrier := by
  obtain ⟨cs, fs, v⟩ := run_via hr
  have hl : s.log = cs := by simpa [UmacBs.init] using v.log
  have hf : s.frags = fs := by simpa [UmacBs.init] using v.frags
  rw [hl, hf]
  exact ⟨v.run, v.defrag, v.brew, v.carrier⟩

/-- Blocks come with a valid time. -/
def UmacEv.Timed : UmacEv → Prop
  | .block c _ => c.x.valid
  | _ => True

/-- What is known of the upper MAC after a history. -/
structure Known (x : Time) (s : UmacBs) : Prop where
  view : View x s.log s.sched
  now : s.now = fromInt (clockAfter x.toInt s.log)
  frags : Follows s.defrag s.frags

theorem caused_capReq {s : UmacBs} {e : UmacEv} (he : e.Timed) {es : List SchedEv} (h : Caused s e es) {t ssi code : Nat}
    (hm : .capReq t ssi code ∈ es) : 1 ≤ t ∧ t ≤ 4 := by
  cases e with
  | tick w =>
    rw [h] at hm
    split at hm <;> simp at hm
  | block c bits =>
    have := h _ hm
    simp only [RxCall] at this
    subst this
    exact ⟨he.1, he.2.1⟩
  | request q =>
    rcases h with ⟨ts, b, _, h⟩ | ⟨p, _, h⟩ <;> rw [h] at hm <;> simp at hm
  | voiceDown ts b => rcases h with h | h <;> rw [h] at hm <;> simp at hm
  | voiceUp ts data => rcases h with h | ⟨b, _, h⟩ <;> rw [h] at hm <;> simp at hm
  | control m =>
    cases m with
    | «open» c =>
      obtain ⟨k, h⟩ := h
      rw [h] at hm
      simp only [List.mem_flatMap] at hm
      obtain ⟨d, _, hm⟩ := hm
      rcases List.mem_append.1 hm with hm | hm
      · split at hm <;> simp at hm
      · simp at hm
    | close d ts => rw [h] at hm; simp at hm
    | released ts => rw [h] at hm; simp at hm
    | granted ts => rw [h] at hm; simp at hm
    | ended ts => rw [h] at hm; simp at hm

theorem step_clock {s s' : UmacBs} {e : UmacEv} {out : List UmacOut} (h : s.step e = .ok (s', out)) {x : Time}
    (hn : s.now = fromInt (clockAfter x.toInt s.log)) : s'.now = fromInt (clockAfter x.toInt s'.log) := by
  have quiet : ∀ {cs fs}, Via s cs fs s' → s'.now = s.now → (∀ p ∈ cs, p.1 ≠ .tick) → s'.now = fromInt (clockAfter x.toInt s'.log) := by
    intro cs fs v hq hnt
    rw [hq, hn, v.log, clockAfter_eq, clockAfter_eq, List.map_append, ticksIn, ticksIn, List.countP_append]
    have : List.countP (· == SchedEv.tick) (cs.map Prod.fst) = 0 := by
      rw [List.countP_eq_zero]
      intro e he
      obtain ⟨p, hp, rfl⟩ := List.mem_map.1 he
      simpa using hnt p hp
    rw [this]; rfl
  have noTick : ∀ {cs : List (SchedEv × SchedRet)}, (.tick ∉ cs.map Prod.fst) → ∀ p ∈ cs, p.1 ≠ .tick := by
    intro cs h p hp he
    exact h (he ▸ List.mem_map_of_mem hp)
  cases e with
  | tick w =>
    obtain ⟨cs, v, c, n, _⟩ := tick_via h
    rw [hn, fromInt_add _ _ (by omega) (by omega)] at n
    rw [← Res.ok.inj n, v.log, clockAfter_eq, clockAfter_eq, List.map_append, ticksIn, ticksIn, List.countP_append]
    have : List.countP (· == SchedEv.tick) (cs.map Prod.fst) = 1 := by
      rw [c]; split <;> simp
    rw [this]; congr 1
    omega
  | block c bits =>
    obtain ⟨cs, fs, v, q, k⟩ := rxBlock_rx h
    refine quiet v q.now (fun p hp he => ?_)
    have := k p hp
    rw [he] at this
    exact this
  | request q =>
    simp only [UmacBs.step] at h
    rw [Out.bind_eq_ok] at h; obtain ⟨s1, h1, h⟩ := h
    cases h
    obtain ⟨cs, v, q1, c⟩ := request_via h1
    refine quiet v q1.now (noTick ?_)
    rcases c with ⟨ts, b, _, c⟩ | ⟨p, _, c⟩ <;> rw [c] <;> simp
  | voiceDown ts b =>
    simp only [UmacBs.step] at h
    rw [Out.bind_eq_ok] at h; obtain ⟨s1, h1, h⟩ := h
    cases h
    obtain ⟨cs, v, c, n, _⟩ := voiceDown_via h1
    refine quiet v n (noTick ?_)
    rcases c with c | c <;> rw [c] <;> simp
  | voiceUp ts data =>
    obtain ⟨cs, v, c, n, _⟩ := voiceUp_via h
    refine quiet v n (noTick ?_)
    rcases c with c | ⟨b, _, c⟩ <;> rw [c] <;> simp
  | control m =>
    simp only [UmacBs.step] at h
    rw [Out.bind_eq_ok] at h; obtain ⟨s1, h1, h⟩ := h
    cases h
    obtain ⟨cs, v, c, n, _⟩ := control_via h1
    refine quiet v n (noTick ?_)
    cases m with
    | «open» c' =>
      obtain ⟨k, c⟩ := c
      rw [c]
      simp only [List.mem_flatMap, not_exists, not_and, List.mem_append, not_or]
      intro d _
      constructor
      · split <;> simp
      · simp
    | close d ts => rw [c]; simp
    | released ts => rw [c]; simp
    | granted ts => rw [c]; simp
    | ended ts => rw [c]; simp

theorem Known.step {x : Time} {s s' : UmacBs} (hk : Known x s) {e : UmacEv} (he : e.Timed) {out : List UmacOut}
    (h : s.step e = .ok (s', out)) : Known x s' := by
  obtain ⟨cs, fs, v, c⟩ := step_via h
  obtain ⟨os, hd⟩ := v.defrag
  refine ⟨?_, step_clock h hk.now, ?_⟩
  · rw [v.log]; exact srun_view hk.view (fun t ssi code hm => caused_capReq he c hm) v.run
  · rw [v.frags]; exact follows_run hk.frags hd

theorem Known.init (brew : Bool) (carrier : Nat) (x : Time) (hx : x.valid) (scramb : Nat) (wide : Bool) (pre : Precomps) :
    Known x (.init brew carrier x scramb wide pre) :=
  ⟨View.init x hx scramb pre, by simp [UmacBs.init, clockAfter, ulClock, fromInt_toInt hx], follows_new⟩

theorem run_known {brew : Bool} {carrier : Nat} {x : Time} (hx : x.valid) {scramb : Nat} {wide : Bool} {pre : Precomps} {s : UmacBs}
    {h : List (UmacEv × List UmacOut)} (hr : UmacRun (.init brew carrier x scramb wide pre) h s) (ht : ∀ p ∈ h, p.1.Timed) :
    Known x s := by
  generalize hs0 : UmacBs.init brew carrier x scramb wide pre = s0 at hr
  induction hr with
  | init => subst hs0; exact Known.init brew carrier x hx scramb wide pre
  | step hr' hst ih =>
    exact (ih (fun p hp => ht p (List.mem_append_left _ hp))).step (ht (_, _) (List.mem_append_right _ (List.mem_singleton.2 rfl))) hst

end Verif.Umac
