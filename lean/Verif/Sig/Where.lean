import Verif.Sig.Sample
import Verif.Cmce.CallClock
/-!
# In which timeslot a group is told that its call is over

Property C92. Signalling which is not sent in stolen half slots goes out in the timeslot of its time stamp (C72, C90). Here: the time
stamp of a D-RELEASE, in histories in which ticks come for one timeslot after the other and what a station sends is handled two
timeslots later.
-/
namespace Verif.Sig
open Verif.Tdma Verif.Bits
open Verif.Umac (Addr SsiType)
open Verif.Cmce (BsEv BsOut Bs BsRun BsInv CcEv CcOut Cc Party Service SdsView SubUpdate Control Cause hear Means stops)
open Verif.Mm (Mm MmIn MmOut MmRun)
open Verif.Mle (Mle)
open Verif.Llc (Llc)

/-! ## Specification -/

/-- The latest tick. -/
def clock (evs : List Ev) : Option Time := evs.foldl (fun c e => match e with
  | .tickStart now _ _ _ => some now
  | _ => c) none

/-- The timeslot two before. -/
def twoBefore (t : Nat) : Nat := (t + 1) % 4 + 1

/-- What can happen next in a base station which runs: a tick for the next timeslot, when everything has been delivered
(messagerouter.rs:152-165); a frame, received two timeslots ago (phy_bs.rs:86-87); anything else once the first tick has come. -/
def Timely (evs : List Ev) (s : St) : Ev → Prop
  | .tickStart now _ _ _ => now.valid ∧ s.queue = [] ∧ ∀ t, clock evs = some t → Succ t now
  | .frame _ ts _ => ∃ t, clock evs = some t ∧ ts = twoBefore t.t
  | _ => clock evs ≠ none

/-- Histories of a base station which runs. -/
inductive Live (c : Cfg) : List Ev → List Call → St → Prop where
  | init : Live c [] [] (.init c)
  | step {evs : List Ev} {tr calls : List Call} {s s' : St} {e : Ev} :
      Live c evs tr s → Timely evs s e → s.step c e = .ok (s', calls) → Live c (evs ++ [e]) (tr ++ calls) s'
  | reorder {evs : List Ev} {tr : List Call} {s : St} {cc' : Cc} :
      Live c evs tr s → s.bs.cc.Reordered cc' → Live c evs tr { s with bs := { s.bs with cc := cc' } }

theorem Live.run {c : Cfg} {evs : List Ev} {tr : List Call} {s : St} (h : Live c evs tr s) : Run c evs tr s := by
  induction h with
  | init => exact .init
  | step _ _ hs ih => exact .step ih hs
  | reorder _ hr ih => exact .reorder ih hr

/-- The timeslot of the clock of call control while it handles an event. -/
def slotOf (p : Stamp) : BsEv → Nat
  | .tick now _ => now.t
  | _ => p.clock

/-- The timeslot in which the talker of a call stopped, by what its group was told. -/
def stopped (tr : List Call) : Nat → Option Nat := tr.foldl (fun f k => match k with
  | .cmce p e out => (out.filterMap hear).foldl (stops (slotOf p e)) f
  | _ => f) fun _ => none

/-! ## One event of call control -/

theorem bs_reads {r : Nat → Bool} {h : List (BsEv × List BsOut)} {s s' : Bs} (hi : BsInv r h s) {v : SdsView} {e : BsEv} {out : List BsOut}
    (he : e.Sane r) (hs : s.step v e = .ok (s', out)) :
    (∃ c, Means e c ∧ s.cc.step c = .ok (s'.cc, out.filterMap hear)) ∨ ((∀ c, ¬ Means e c) ∧ s' = s ∧ out.filterMap hear = []) := by
  rcases Cmce.step_cases hs with ⟨c, o1, o2, h1, h2, rfl, h3⟩ | ⟨h1, h2, h3⟩
  · left
    obtain ⟨h4, _⟩ := Cmce.call_inv hi (Cmce.means_fits h1 he).1 (Cmce.asks_ok e) h2
    refine ⟨c, h1, ?_⟩
    rw [List.filterMap_append, Cmce.hear_nil h3, List.append_nil]
    exact h4
  · exact .inr ⟨h1, h2, Cmce.hear_nil h3⟩

/-- What is known about a call of call control, with the calls before it. -/
def Placed (before : List Call) : Call → Prop
  | .cmce p e out => match e with
    | .mobile _ sdu => 1 ≤ p.clock ∧ p.clock ≤ 4 ∧ p.msg = twoBefore p.clock ∧ ∀ o ∈ out, ∀ party id cause, hear o = some (.dRelease party id cause) →
        ofBits (sdu.take 5) = 4 ∨ ofBits (sdu.take 5) = 6
    | .tick now _ => ∀ o ∈ out, ∀ party id cause, hear o = some (.dRelease party id cause) →
        now.t = 1 ∨ ∃ slot, stopped before id = some slot ∧ now.t = slot % 4 + 1
    | _ => True
  | _ => True

/-- All calls. -/
def AllPlaced (tr : List Call) : Prop := ∀ t1 k t2, tr = t1 ++ k :: t2 → Placed t1 k

theorem allPlaced_snoc {tr : List Call} {k : Call} (h : AllPlaced tr) (hk : Placed tr k) : AllPlaced (tr ++ [k]) := by
  intro t1 x t2 e
  rcases List.eq_nil_or_concat t2 with rfl | ⟨t3, y, rfl⟩
  · obtain ⟨rfl, e2⟩ := List.append_inj' e rfl
    cases e2
    exact hk
  · rw [List.concat_eq_append, ← List.cons_append, ← List.append_assoc] at e
    obtain ⟨rfl, _⟩ := List.append_inj' e rfl
    exact h t1 x t3 rfl

/-- The invariant, but for the queue. -/
structure Core (c : Cfg) (tr : List Call) (s : St) : Prop where
  bs : BsRun (Brew.gssiRoutable c.brew) (bsCalls tr) s.bs
  hang : s.bs.cc.Hanging
  told : s.bs.cc.Told (stopped tr)
  placed : AllPlaced tr

theorem Core.inv {c : Cfg} {tr : List Call} {s : St} (h : Core c tr s) : Cmce.CcInv s.bs.cc := by
  obtain ⟨h', _, h1⟩ := (Cmce.bsRun_inv h.bs).reads
  exact Cmce.ccRun_inv h1

/-- A call of another entity. -/
theorem Core.aside {c : Cfg} {tr : List Call} {s s' : St} {k : Call} (h : Core c tr s) (hb : s'.bs = s.bs) (hk : ∀ p e out, k ≠ .cmce p e out) :
    Core c (tr ++ [k]) s' := by
  obtain ⟨h1, h2, h3, h4⟩ := h
  have e1 : bsCalls (tr ++ [k]) = bsCalls tr := by
    cases k with
    | cmce p e out => exact absurd rfl (hk p e out)
    | _ => simp [bsCalls]
  have e2 : stopped (tr ++ [k]) = stopped tr := by
    cases k with
    | cmce p e out => exact absurd rfl (hk p e out)
    | _ => simp [stopped, List.foldl_append]
  refine ⟨by rw [e1, hb]; exact h1, by rw [hb]; exact h2, by rw [e2, hb]; exact h3, allPlaced_snoc h4 ?_⟩
  cases k with
  | cmce p e out => exact absurd rfl (hk p e out)
  | _ => trivial

theorem hear_sds {o : BsOut} {x : CcOut} (h : hear o = some x) : isSds o = false := by
  cases o with
  | air party service chan st sdu =>
    simp only [isSds, decide_eq_false_iff_not]
    intro e
    simp only [hear, e] at h
    cases h
  | _ => rfl

/-- A call of call control. -/
theorem Core.bsCall {c : Cfg} {tr k : List Call} {s s' : St} {ts : Nat} {e : BsEv} (h : Core c tr s) (he : e.Sane (Brew.gssiRoutable c.brew))
    (ht : ∀ now cmds, e = .tick now cmds → now.valid ∧ (s.bs.cc.calls = [] ∨ Succ s.bs.cc.now now))
    (hm : ∀ ssi sdu, e = .mobile ssi sdu → ts = twoBefore s.bs.cc.now.t) (hk : s.callBs c ts e = .ok (s', k)) :
    Core c (tr ++ k) s' ∧ s'.bs.cc.now = (match e with | .tick now _ => now | _ => s.bs.cc.now) := by
  obtain ⟨b', out, h1, rfl, rfl⟩ := callBs_ok hk
  have hi := h.inv
  have hrun := Cmce.BsRun.step h.bs he h1
  have e1 : bsCalls (tr ++ [.cmce ⟨ts, s.bs.cc.now.t⟩ e out]) = bsCalls tr ++ [(e, out)] := by simp [bsCalls]
  have e2 : stopped (tr ++ [.cmce ⟨ts, s.bs.cc.now.t⟩ e out]) =
      (out.filterMap hear).foldl (stops (slotOf ⟨ts, s.bs.cc.now.t⟩ e)) (stopped tr) := by
    simp [stopped, List.foldl_append]
  rcases bs_reads (Cmce.bsRun_inv h.bs) he h1 with ⟨x, hx, hs⟩ | ⟨hx, rfl, ho⟩
  · have hslot : slotOf ⟨ts, s.bs.cc.now.t⟩ e = x.slot s.bs.cc.now.t := by
      cases e with
      | tick now cmds => cases hx; rfl
      | mobile ssi sdu =>
        rcases hx with ⟨_, _, _, _, _, rfl⟩ | ⟨_, _, _, rfl⟩ | ⟨_, _, _, rfl⟩ | ⟨_, _, _, rfl⟩ | ⟨_, _, _, rfl⟩ <;> rfl
      | sdsFromBrew => cases hx
      | _ => cases hx; rfl
    have htold : b'.cc.Told (stopped (tr ++ [.cmce ⟨ts, s.bs.cc.now.t⟩ e out])) := by
      rw [e2, hslot]
      exact h.told.step hi hs
    by_cases htick : ∃ now cmds, e = .tick now cmds
    · obtain ⟨now, cmds, rfl⟩ := htick
      cases hx
      obtain ⟨hv, hsucc⟩ := ht now cmds rfl
      have hh : b'.cc.Hanging ∧ b'.cc.now = now := by
        rcases hsucc with h0 | h0
        · exact Cmce.Cc.Hanging.first h0 hi hv hs
        · exact h.hang.tick hi h0 hs
      refine ⟨⟨by rw [e1]; exact hrun, hh.1, htold, allPlaced_snoc h.placed ?_⟩, hh.2⟩
      intro o ho p id cause hear'
      have hmem : CcOut.dRelease p id cause ∈ out.filterMap hear := List.mem_filterMap.2 ⟨o, ho, hear'⟩
      rcases Cmce.tick_release hi hs hmem with h2 | ⟨call, t, h2, h3, h4⟩
      · exact .inl h2
      · right
        refine ⟨t.t, h.told id call t h2 h3, ?_⟩
        rcases hsucc with h0 | h0
        · rw [h0] at h2; cases h2
        · obtain ⟨a1, a2, a3⟩ := h.hang.2 id call t h2 h3
          obtain ⟨hv, a4⟩ := Cmce.age_succ (t := t) h.hang.1 h0 (by omega) (by omega)
          have a5 := Cmce.slot_of_age a1 hv
          obtain ⟨b1, b2, _⟩ := a1
          obtain ⟨c1, c2, _⟩ := hv
          omega
    · have hne : ∀ now, x ≠ .tick now := by
        rintro now rfl
        cases e with
        | tick now' cmds => exact htick ⟨_, _, rfl⟩
        | mobile ssi sdu => rcases hx with ⟨_, _, _, _, _, h⟩ | ⟨_, _, _, h⟩ | ⟨_, _, _, h⟩ | ⟨_, _, _, h⟩ | ⟨_, _, _, h⟩ <;> cases h
        | sdsFromBrew => cases hx
        | _ => cases hx
      obtain ⟨g1, g2⟩ := h.hang.step hi hne hs
      refine ⟨⟨by rw [e1]; exact hrun, g1, htold, allPlaced_snoc h.placed ?_⟩, ?_⟩
      · cases e with
        | mobile ssi sdu =>
          obtain ⟨v1, v2, _⟩ := h.hang.1
          refine ⟨v1, v2, hm ssi sdu rfl, ?_⟩
          intro o ho p id cause hear'
          have hmem : CcOut.dRelease p id cause ∈ out.filterMap hear := List.mem_filterMap.2 ⟨o, ho, hear'⟩
          rcases hx with ⟨y, rest, _, hd, _, rfl⟩ | ⟨y, rest, hd, rfl⟩ | ⟨y, rest, hd, rfl⟩ | ⟨y, rest, hd, rfl⟩ | ⟨y, rest, hd, rfl⟩
          · exact (Cmce.setup_release hs hmem).elim
          · exact (Cmce.demand_release hs hmem).elim
          · exact (Cmce.ceased_release hs hmem).elim
          · exact .inr (Cmce.type_of_read hd).2
          · exact .inl (Cmce.type_of_read hd).2
        | tick now cmds => exact absurd ⟨_, _, rfl⟩ htick
        | _ => trivial
      · cases e with
        | tick now cmds => exact absurd ⟨_, _, rfl⟩ htick
        | _ => exact g2
  · have e3 : stopped (tr ++ [.cmce ⟨ts, s.bs.cc.now.t⟩ e out]) = stopped tr := by rw [e2, ho]; rfl
    refine ⟨⟨by rw [e1]; exact hrun, h.hang, by rw [e3]; exact h.told, allPlaced_snoc h.placed ?_⟩, ?_⟩
    · have hnone : ∀ o ∈ out, ∀ y, hear o ≠ some y := by
        intro o hmo y hy
        have : y ∈ out.filterMap hear := List.mem_filterMap.2 ⟨o, hmo, hy⟩
        rw [ho] at this; cases this
      cases e with
      | mobile ssi sdu =>
        obtain ⟨v1, v2, _⟩ := h.hang.1
        exact ⟨v1, v2, hm ssi sdu rfl, fun o hmo _ _ _ hy => (hnone o hmo _ hy).elim⟩
      | tick now cmds => exact fun o hmo _ _ _ hy => (hnone o hmo _ hy).elim
      | _ => trivial
    · cases e with
      | tick now cmds => exact absurd rfl (hx _)
      | _ => rfl

/-! ## Histories -/

/-- The invariant. -/
structure LiveInv (c : Cfg) (evs : List Ev) (tr : List Call) (s : St) : Prop where
  core : Core c tr s
  clock : ∀ t, clock evs = some t → s.bs.cc.now = t
  fresh : Sig.clock evs = none → s.bs.cc.calls = []
  slot : ∀ m ∈ waiting s.queue, m.slot = twoBefore s.bs.cc.now.t

theorem clock_snoc (evs : List Ev) (e : Ev) : clock (evs ++ [e]) = (match e with
    | .tickStart now _ _ _ => some now
    | _ => clock evs) := by
  simp only [clock, List.foldl_append, List.foldl_cons, List.foldl_nil]

theorem Core.llc {c : Cfg} {tr k : List Call} {s s' : St} {ts : Nat} {e : Llc.Ev} (h : Core c tr s) (hk : s.callLlc ts e = .ok (s', k)) :
    Core c (tr ++ k) s' ∧ s'.bs = s.bs := by
  obtain ⟨l, es, h1, rfl, rfl⟩ := callLlc_ok hk
  exact ⟨h.aside rfl (by simp), rfl⟩

theorem Core.time {c : Cfg} {tr k : List Call} {s s' : St} {now : Time} {cl : Mle.Clock} (h : Core c tr s)
    (hk : s.tickMle now cl = .ok (s', k)) : Core c (tr ++ k) s' ∧ s'.bs = s.bs := by
  obtain ⟨l, es, h1, rfl, rfl⟩ := tickMle_ok hk
  exact ⟨h.aside rfl (by simp), rfl⟩

theorem Core.queue {c : Cfg} {tr : List Call} {s : St} {q : List Letter} (h : Core c tr s) : Core c tr { s with queue := q } :=
  ⟨h.bs, h.hang, h.told, h.placed⟩

/-- Ticks do not come through the queue. -/
def NoTick : Letter → Prop
  | .cmce _ (.tick _ _) => False
  | _ => True

theorem queue_noTick {c : Cfg} {evs : List Ev} {tr : List Call} {s : St} (h : Run c evs tr s) : ∀ l ∈ s.queue, NoTick l := by
  have app : ∀ {q ls : List Letter}, (∀ l ∈ q, NoTick l) → (∀ l ∈ ls, NoTick l) → ∀ l ∈ q ++ ls, NoTick l := by
    intro q ls h1 h2 l hl
    rcases List.mem_append.1 hl with hl | hl
    · exact h1 l hl
    · exact h2 l hl
  have up : ∀ {s s' : St} {ts : Nat} {e : Llc.Ev} {k : List Call}, (∀ l ∈ s.queue, NoTick l) → s.callLlc ts e = .ok (s', k) → ∀ l ∈ s'.queue, NoTick l := by
    intro s s' ts e k h1 h2
    obtain ⟨l, es, _, rfl, rfl⟩ := callLlc_ok h2
    refine app h1 fun l hl => ?_
    obtain ⟨o, _, ho⟩ := List.mem_filterMap.1 hl
    cases o with
    | up b addr li x sdu => cases b <;> · simp only [ofLlc, Option.some.injEq] at ho; subst ho; trivial
    | _ => cases ho
  have mle : ∀ {out : List Mle.Out}, ∀ l ∈ out.map ofMle, NoTick l := by
    intro out l hl
    obtain ⟨o, _, rfl⟩ := List.mem_map.1 hl
    cases o <;> trivial
  have bs : ∀ {s s' : St} {ts : Nat} {e : BsEv} {k : List Call}, (∀ l ∈ s.queue, NoTick l) → s.callBs c ts e = .ok (s', k) → ∀ l ∈ s'.queue, NoTick l := by
    intro s s' ts e k h1 h2
    obtain ⟨l, es, _, rfl, rfl⟩ := callBs_ok h2
    refine app h1 fun l hl => ?_
    obtain ⟨o, _, ho⟩ := List.mem_filterMap.1 hl
    cases o with
    | air => simp only [ofBs, Option.some.injEq] at ho; subst ho; trivial
    | _ => cases ho
  have time : ∀ {s s' : St} {now : Time} {cl : Mle.Clock} {k : List Call}, (∀ l ∈ s.queue, NoTick l) → s.tickMle now cl = .ok (s', k) → ∀ l ∈ s'.queue, NoTick l := by
    intro s s' now cl k h1 h2
    obtain ⟨l, es, _, rfl, rfl⟩ := tickMle_ok h2
    exact app h1 mle
  induction h with
  | init => intro l hl; cases hl
  | reorder _ _ ih => exact ih
  | @step evs tr calls s s' e _ hs ih =>
    cases e with
    | frame addr ts pdu => cases hs; exact app ih (by intro l hl; simp only [List.mem_singleton] at hl; subst hl; trivial)
    | toCmce ts e => cases hs; exact app ih (by intro l hl; simp only [List.mem_singleton] at hl; subst hl; cases e <;> trivial)
    | tickEnd => exact up ih hs
    | mac => exact up ih hs
    | tickStart now cmds cl b =>
      simp only [St.step] at hs
      obtain ⟨s1, k1, k2, h1, h2, rfl⟩ := andThen_ok hs
      have i1 := up ih h1
      split at h2
      · obtain ⟨s2, k3, k4, h3, h4, rfl⟩ := andThen_ok h2
        exact bs (time i1 h3) h4
      · obtain ⟨s2, k3, k4, h3, h4, rfl⟩ := andThen_ok h2
        exact time (bs i1 h3) h4
    | deliver =>
      simp only [St.step] at hs
      split at hs
      · cases hs; exact ih
      · rename_i l q hq
        have ih' : ∀ l ∈ ({ s with queue := q } : St).queue, NoTick l := fun l hl => ih l (by rw [hq]; exact List.mem_cons_of_mem _ hl)
        cases l with
        | frame => exact up ih' hs
        | tlData => exact up ih' hs
        | tlUnitdata => exact up ih' hs
        | sndcp => cases hs
        | mle m =>
          obtain ⟨l', es, h1, rfl, rfl⟩ := callMle_ok hs
          exact app ih' mle
        | mm handle addr ts sdu =>
          obtain ⟨l', es, h1, rfl, rfl⟩ := callMm_ok hs
          refine app ih' fun l hl => ?_
          obtain ⟨o, _, ho⟩ := List.mem_filterMap.1 hl
          cases o <;> simp [ofMm] at ho <;> subst ho <;> trivial
        | cmce ts e => exact bs ih' hs

theorem live_inv {c : Cfg} {evs : List Ev} {tr : List Call} {s : St} (h : Live c evs tr s) (he : ∀ e ∈ evs, e.Sane c) : LiveInv c evs tr s := by
  induction h with
  | init =>
    refine ⟨⟨.init, ⟨show Time.valid Time.default by decide, ?_⟩, ?_, ?_⟩, ?_, fun _ => rfl, ?_⟩
    · intro id c t hc; cases hc
    · intro id c t hc; cases hc
    · intro t1 k t2 e; simp at e
    · intro t ht; cases ht
    · intro m hm; cases hm
  | @reorder evs tr s cc' _ hr ih =>
    obtain ⟨⟨i1, i2, i3, i4⟩, i5, i6, i7⟩ := ih he
    have hi : Cmce.CcInv s.bs.cc := Core.inv (c := c) (tr := tr) ⟨i1, i2, i3, i4⟩
    obtain ⟨calls', f, hp, _, rfl⟩ := id hr
    have hg : ∀ id, calls'.get id = s.bs.cc.calls.get id := Cmce.get_perm hp hi.ok
    refine ⟨⟨.reorder i1 hr, ⟨i2.1, ?_⟩, ?_, i4⟩, i5, ?_, i7⟩
    · intro id c t hc; rw [hg] at hc; exact i2.2 id c t hc
    · intro id c t hc; rw [hg] at hc; exact i3 id c t hc
    · intro hn
      have := i6 hn
      rw [this] at hp
      exact hp.eq_nil
  | @step evs tr calls s s' e hl htl hs ih =>
    have hi := ih fun x hx => he x (List.mem_append_left _ hx)
    have hsane := sane_inv hl.run fun x hx => he x (List.mem_append_left _ hx)
    obtain ⟨hcore, hclock, hfresh, hslot⟩ := hi
    -- events which leave call control alone
    have calm : Core c (tr ++ calls) s' → s'.bs = s.bs → clock (evs ++ [e]) = clock evs → (∀ m ∈ waiting s'.queue, m.slot = twoBefore s.bs.cc.now.t) →
        LiveInv c (evs ++ [e]) (tr ++ calls) s' := by
      intro h1 h2 h3 h4
      refine ⟨h1, ?_, ?_, ?_⟩
      · rw [h3, h2]; exact hclock
      · rw [h3, h2]; exact hfresh
      · rw [h2]; exact h4
    cases e with
    | frame addr ts pdu =>
      cases hs
      rw [List.append_nil]
      obtain ⟨t, ht, hts⟩ := htl
      refine calm (by rw [List.append_nil]; exact hcore.queue) rfl (clock_snoc _ _) ?_ |> fun h => by simpa using h
      intro m hm
      simp only [waiting, List.filterMap_append, List.filterMap_cons, List.filterMap_nil, atTop, atMle, inFrame, List.append_nil,
        List.mem_append] at hm
      rcases hm with hm | hm
      · exact hslot m (by simp only [waiting, List.mem_append]; tauto)
      · rcases hm with hm | hm
        · exact hslot m (by simp only [waiting, List.mem_append]; tauto)
        · rw [hclock t ht]
          cases hmo : messageOf addr ts pdu with
          | none => rw [hmo] at hm; cases hm
          | some x =>
            rw [hmo] at hm
            simp only [List.mem_singleton] at hm
            subst hm
            unfold messageOf at hmo
            split at hmo
            · split at hmo
              · cases hmo; exact hts
              · cases hmo
            · cases hmo
    | toCmce ts e =>
      cases hs
      rw [List.append_nil]
      have hin : ∀ l ∈ [Letter.cmce ts e.ev], Inert l := by
        intro l hl
        simp only [List.mem_singleton] at hl
        subst hl
        cases e <;> exact ⟨rfl, rfl, rfl⟩
      refine calm (by rw [List.append_nil]; exact hcore.queue) rfl (clock_snoc _ _) ?_ |> fun h => by simpa using h
      intro m hm
      rw [waiting_inert hin] at hm
      exact hslot m hm
    | tickEnd =>
      obtain ⟨h1, h2⟩ := hcore.llc hs
      refine calm h1 h2 (clock_snoc _ _) ?_
      rw [(heard_aside hs (.inr (.inl rfl))).2]
      exact hslot
    | mac id d =>
      obtain ⟨h1, h2⟩ := hcore.llc hs
      refine calm h1 h2 (clock_snoc _ _) ?_
      rw [(heard_aside hs (.inr (.inr ⟨_, _, rfl⟩))).2]
      exact hslot
    | tickStart now cmds cl b =>
      obtain ⟨hv, hq, hsucc⟩ := htl
      have hw := (heard_aside hs (.inl ⟨_, _, _, _, rfl⟩)).2
      have key : Core c (tr ++ calls) s' ∧ s'.bs.cc.now = now := by
        have hstep : ∀ {s1 : St}, s1.bs = s.bs → ∀ now' cmds', BsEv.tick now cmds = .tick now' cmds' →
            now'.valid ∧ (s1.bs.cc.calls = [] ∨ Succ s1.bs.cc.now now') := by
          rintro s1 e1 _ _ ⟨⟩
          refine ⟨hv, ?_⟩
          rw [e1]
          cases hc : clock evs with
          | none => exact .inl (hfresh hc)
          | some t => rw [hclock t hc]; exact .inr (hsucc t hc)
        simp only [St.step] at hs
        obtain ⟨s1, k1, k2, h1, h2, rfl⟩ := andThen_ok hs
        rw [← List.append_assoc]
        obtain ⟨i1, e1⟩ := hcore.llc h1
        split at h2
        · obtain ⟨s2, k3, k4, h3, h4, rfl⟩ := andThen_ok h2
          rw [← List.append_assoc]
          obtain ⟨i2, e2⟩ := i1.time h3
          exact i2.bsCall (e := .tick now cmds) trivial (hstep (e2.trans e1)) (by simp) h4
        · obtain ⟨s2, k3, k4, h3, h4, rfl⟩ := andThen_ok h2
          rw [← List.append_assoc]
          obtain ⟨i2, e2⟩ := i1.bsCall (e := .tick now cmds) trivial (hstep e1) (by simp) h3
          obtain ⟨i3, e3⟩ := i2.time h4
          exact ⟨i3, by rw [e3]; exact e2⟩
      refine ⟨key.1, ?_, ?_, ?_⟩
      · intro t ht
        rw [clock_snoc] at ht
        cases ht
        exact key.2
      · intro hn
        rw [clock_snoc] at hn
        cases hn
      · rw [hw, hq]
        intro m hm; cases hm
    | deliver =>
      have hck : clock (evs ++ [.deliver]) = clock evs := clock_snoc _ _
      simp only [St.step] at hs
      split at hs
      · cases hs
        exact calm (by rw [List.append_nil]; exact hcore) rfl hck hslot
      · rename_i l q hq
        have hd := heard_deliver hs
        rw [← hq] at hd
        have hslot' : ∀ m ∈ waiting s'.queue, m.slot = twoBefore s.bs.cc.now.t :=
          fun m hm => hslot m (by rw [← hd]; exact List.mem_append_right _ hm)
        have hc' : Core c tr { s with queue := q } := hcore.queue
        cases l with
        | frame addr ts pdu =>
          obtain ⟨h1, h2⟩ := hc'.llc hs
          exact calm h1 h2 hck hslot'
        | tlData =>
          obtain ⟨h1, h2⟩ := hc'.llc hs
          exact calm h1 h2 hck hslot'
        | tlUnitdata =>
          obtain ⟨h1, h2⟩ := hc'.llc hs
          exact calm h1 h2 hck hslot'
        | mle m =>
          obtain ⟨l', es, h1, rfl, rfl⟩ := callMle_ok hs
          exact calm (hc'.aside rfl (by simp)) rfl hck hslot'
        | mm handle addr ts sdu =>
          obtain ⟨l', es, h1, rfl, rfl⟩ := callMm_ok hs
          exact calm (hc'.aside rfl (by simp)) rfl hck hslot'
        | sndcp => cases hs
        | cmce ts e =>
          have hse : e.Sane (Brew.gssiRoutable c.brew) := hsane.queue (.cmce ts e) (by rw [hq]; simp)
          have hnt : ∀ now cmds, e ≠ .tick now cmds := by
            rintro now cmds rfl
            exact queue_noTick hl.run (.cmce ts (.tick now cmds)) (by rw [hq]; simp)
          obtain ⟨h1, h2⟩ := hc'.bsCall hse (fun now cmds e => absurd e (hnt now cmds)) (by
            rintro ssi sdu rfl
            have : (⟨2, ssi, ts, sdu⟩ : Message) ∈ waiting s.queue := by
              rw [hq]; simp [waiting, atTop]
            exact hslot _ this) hs
          have h3 : s'.bs.cc.now = s.bs.cc.now := by
            cases e with
            | tick now cmds => exact absurd rfl (hnt now cmds)
            | _ => exact h2
          refine ⟨h1, ?_, ?_, ?_⟩
          · rw [hck, h3]; exact hclock
          · intro hn; exact absurd (hck ▸ hn) htl
          · rw [h3]; exact hslot'

/-! ## The property -/

/-- Every message call control handles came in a frame of its sender, and the time stamp it has is the timeslot of that frame. -/
theorem heard_frame {c : Cfg} {evs : List Ev} {tr : List Call} {s : St} (h : Run c evs tr s) {p : Stamp} {ssi : Nat} {sdu : List Bool}
    {out : List BsOut} (hk : .cmce p (.mobile ssi sdu) out ∈ tr) :
    ∃ addr pdu, .frame addr p.msg pdu ∈ evs ∧ addr.ssi = ssi ∧ Carries pdu 2 sdu := by
  have h1 : (⟨2, ssi, p.msg, sdu⟩ : Message) ∈ heard tr := List.mem_filterMap.2 ⟨_, hk, rfl⟩
  have h2 := heard_inv h
  have h3 : (⟨2, ssi, p.msg, sdu⟩ : Message) ∈ (frames evs).filterMap (fun f => messageOf f.1 f.2.1 f.2.2) := by
    rw [h2]; exact List.mem_append_left _ h1
  obtain ⟨⟨addr, ts, pdu⟩, h4, h5⟩ := List.mem_filterMap.1 h3
  simp only [messageOf] at h5
  split at h5
  · rename_i d msg hb
    split at h5
    · cases h5
      refine ⟨addr, pdu, ?_, rfl, (carries_iff _ _ _).1 hb⟩
      obtain ⟨e, h6, h7⟩ := List.mem_filterMap.1 h4
      cases e with
      | frame a t q => cases h7; exact h6
      | _ => cases h7
    · cases h5
  · cases h5

/-- **C92, finding.** A D-RELEASE which answers a message of a station is for the timeslot two after the one the station sent its message
in, and so not for that in which the station, and the rest of its group, is listening. -/
theorem c92_release_finding {c : Cfg} {evs : List Ev} {tr : List Call} {s : St} (h : Live c evs tr s) (he : ∀ e ∈ evs, e.Sane c)
    {p : Stamp} {ssi : Nat} {sdu : List Bool} {out : List BsOut} (hk : .cmce p (.mobile ssi sdu) out ∈ tr) {o : BsOut} (ho : o ∈ out)
    {party : Party} {id : Nat} {cause : Cause} (hr : hear o = some (.dRelease party id cause)) :
    ∃ addr ts pdu, .frame addr ts pdu ∈ evs ∧ addr.ssi = ssi ∧ Carries pdu 2 sdu ∧
      stampOf p (.mobile ssi sdu) o = (ts + 1) % 4 + 1 ∧ stampOf p (.mobile ssi sdu) o ≠ ts := by
  obtain ⟨addr, pdu, h1, h2, h3⟩ := heard_frame h.run hk
  obtain ⟨t1, t2, rfl⟩ := List.append_of_mem hk
  obtain ⟨a1, a2, a3, a4⟩ := (live_inv h he).core.placed t1 _ t2 rfl
  refine ⟨addr, p.msg, pdu, h1, h2, h3, ?_⟩
  have hty := a4 o ho party id cause hr
  have e : stampOf p (.mobile ssi sdu) o = p.clock := by
    simp only [stampOf]
    rw [if_neg (by omega)]
  rw [e, a3]
  unfold twoBefore
  omega

/-- **C92, finding.** A D-RELEASE sent in a tick, because a hang time or a call is over, is for timeslot 1 or for the timeslot after the
one in which the talker of the call stopped. -/
theorem c92_hang_release {c : Cfg} {evs : List Ev} {tr t1 t2 : List Call} {s : St} (h : Live c evs tr s) (he : ∀ e ∈ evs, e.Sane c)
    {p : Stamp} {now : Time} {cmds : List Control} {out : List BsOut} (hk : tr = t1 ++ .cmce p (.tick now cmds) out :: t2) {o : BsOut}
    (ho : o ∈ out) {party : Party} {id : Nat} {cause : Cause} (hr : hear o = some (.dRelease party id cause)) :
    stampOf p (.tick now cmds) o = 1 ∨ ∃ slot, stopped t1 id = some slot ∧ stampOf p (.tick now cmds) o = slot % 4 + 1 := by
  have e : stampOf p (.tick now cmds) o = now.t := by
    simp [stampOf, hear_sds hr]
  rw [e]
  exact (live_inv h he).core.placed t1 _ t2 hk o ho party id cause hr

/-- What call control does about a message of a station it does two timeslots after the one the message was sent in. -/
theorem c92_handled {c : Cfg} {evs : List Ev} {tr : List Call} {s : St} (h : Live c evs tr s) (he : ∀ e ∈ evs, e.Sane c)
    {p : Stamp} {ssi : Nat} {sdu : List Bool} {out : List BsOut} (hk : .cmce p (.mobile ssi sdu) out ∈ tr) :
    ∃ addr ts pdu, .frame addr ts pdu ∈ evs ∧ addr.ssi = ssi ∧ Carries pdu 2 sdu ∧ 1 ≤ ts ∧ ts ≤ 4 ∧
      slotOf p (.mobile ssi sdu) = (ts + 1) % 4 + 1 := by
  obtain ⟨addr, pdu, h1, h2, h3⟩ := heard_frame h.run hk
  obtain ⟨t1, t2, rfl⟩ := List.append_of_mem hk
  obtain ⟨a1, a2, a3, _⟩ := (live_inv h he).core.placed t1 _ t2 rfl
  refine ⟨addr, p.msg, pdu, h1, h2, h3, ?_⟩
  rw [a3]
  simp only [slotOf, twoBefore]
  omega

/-- The messages about who talks in a call. -/
def AboutFloor (id : Nat) : CcOut → Prop
  | .dTxCeased (.group _) i _ => i = id
  | .dTxGranted (.group _) i _ _ _ => i = id
  | _ => False

theorem stops_other {slot id : Nat} {f : Nat → Option Nat} {os : List CcOut} (h : ∀ o ∈ os, ¬ AboutFloor id o) :
    os.foldl (stops slot) f id = f id := by
  induction os generalizing f with
  | nil => rfl
  | cons o os ih =>
    rw [List.foldl_cons, ih fun x hx => h x (List.mem_cons_of_mem _ hx)]
    have ho := h o List.mem_cons_self
    unfold stops
    split
    · rw [if_neg]; rintro rfl; exact ho rfl
    · rw [if_neg]; rintro rfl; exact ho rfl
    · rfl

theorem stopped_other {tr : List Call} {id : Nat} {f : Nat → Option Nat}
    (h : ∀ p e out, .cmce p e out ∈ tr → ∀ o ∈ out, ∀ x, hear o = some x → ¬ AboutFloor id x) :
    tr.foldl (fun f k => match k with
      | .cmce p e out => (out.filterMap hear).foldl (stops (slotOf p e)) f
      | _ => f) f id = f id := by
  induction tr generalizing f with
  | nil => rfl
  | cons k tr ih =>
    rw [List.foldl_cons, ih fun p e out hk => h p e out (List.mem_cons_of_mem _ hk)]
    cases k with
    | cmce p e out =>
      refine stops_other fun x hx => ?_
      obtain ⟨o, ho, hx⟩ := List.mem_filterMap.1 hx
      exact h p e out List.mem_cons_self o ho x hx
    | _ => rfl

/-- **C92, finding.** When a station has stopped talking in some timeslot and nobody talks after it, the D-RELEASE at the end of the hang
time is for timeslot 1 or for the timeslot before that one: in a call, whose timeslot is not the first, not for the timeslot of the call. -/
theorem c92_hang_release_finding {c : Cfg} {evs : List Ev} {tr t1 t2 t3 : List Call} {s : St} (h : Live c evs tr s) (he : ∀ e ∈ evs, e.Sane c)
    {p q : Stamp} {ssi : Nat} {sdu : List Bool} {now : Time} {cmds : List Control} {out1 out2 out : List BsOut} {x o : BsOut}
    (hk : tr = t1 ++ .cmce q (.mobile ssi sdu) (out1 ++ x :: out2) :: t2 ++ .cmce p (.tick now cmds) out :: t3)
    {g id ts : Nat} (hx : hear x = some (.dTxCeased (.group g) id ts))
    (hno : ∀ y ∈ out2, ∀ z, hear y = some z → ¬ AboutFloor id z)
    (hno2 : ∀ p e out, .cmce p e out ∈ t2 → ∀ y ∈ out, ∀ z, hear y = some z → ¬ AboutFloor id z)
    (ho : o ∈ out) {party : Party} {cause : Cause} (hr : hear o = some (.dRelease party id cause)) :
    ∃ addr slot pdu, .frame addr slot pdu ∈ evs ∧ addr.ssi = ssi ∧ Carries pdu 2 sdu ∧
      (stampOf p (.tick now cmds) o = 1 ∨ stampOf p (.tick now cmds) o = (slot + 2) % 4 + 1) ∧
      (slot ≠ 1 → stampOf p (.tick now cmds) o ≠ slot) := by
  obtain ⟨addr, slot, pdu, h1, h2, h3, s1, s2, h4⟩ := c92_handled h he (p := q) (ssi := ssi) (sdu := sdu) (out := out1 ++ x :: out2) (by rw [hk]; simp)
  refine ⟨addr, slot, pdu, h1, h2, h3, ?_⟩
  have h5 : stopped (t1 ++ .cmce q (.mobile ssi sdu) (out1 ++ x :: out2) :: t2) id = some ((slot + 1) % 4 + 1) := by
    unfold stopped
    rw [List.foldl_append, List.foldl_cons, stopped_other hno2]
    simp only [List.filterMap_append, List.foldl_append, List.filterMap_cons, hx, List.foldl_cons]
    rw [stops_other]
    · simp [stops, h4]
    · intro z hz
      obtain ⟨y, hy, hz⟩ := List.mem_filterMap.1 hz
      exact hno y hy z hz
  rcases c92_hang_release h he (t1 := t1 ++ .cmce q (.mobile ssi sdu) (out1 ++ x :: out2) :: t2) (t2 := t3) hk ho hr with h6 | ⟨sl, h6, h7⟩
  · rw [h6]; exact ⟨.inl rfl, fun h => by omega⟩
  · rw [h5] at h6
    cases h6
    rw [h7]
    omega

/-- **C92, answers.** What answers a U-SETUP, and what a status message or short data of a station becomes, is for the timeslot the
station sent in, and so is every answer of mobility management. -/
theorem c92_answers_partial {c : Cfg} {evs : List Ev} {tr : List Call} {s : St} (h : Run c evs tr s) :
    (∀ p ssi sdu out, .cmce p (.mobile ssi sdu) out ∈ tr → ofBits (sdu.take 5) ∈ [7, 8, 15] →
      ∃ addr ts pdu, .frame addr ts pdu ∈ evs ∧ addr.ssi = ssi ∧ Carries pdu 2 sdu ∧
        ∀ o ∈ cmceSent (stampOf p (.mobile ssi sdu)) out, o.mode = .acknowledged ts ∨ ∃ chan steal, o.mode = .unacknowledged ts chan steal) ∧
    (∀ handle addr ts sdu out, .mm handle addr ts sdu out ∈ tr → ∃ a pdu, .frame a ts pdu ∈ evs ∧ a.ssi = addr.ssi ∧ Carries pdu 1 sdu ∧
      ∀ o ∈ mmSent addr ts sdu out, o.mode = .acknowledged ts) := by
  constructor
  · intro p ssi sdu out hk hty
    obtain ⟨addr, pdu, h1, h2, h3⟩ := heard_frame h hk
    refine ⟨addr, p.msg, pdu, h1, h2, h3, ?_⟩
    intro o ho
    obtain ⟨b, hb, hbo⟩ := List.mem_filterMap.1 ho
    have hs : stampOf p (.mobile ssi sdu) b = p.msg := by
      simp only [stampOf]
      rw [if_pos]
      simpa using hty
    cases b with
    | air q service chan steal bs =>
      simp only [Option.some.injEq] at hbo
      subst hbo
      simp only [hs]
      split
      · exact .inr ⟨_, _, rfl⟩
      · exact .inl rfl
    | _ => cases hbo
  · intro handle addr ts sdu out hk
    have h1 : (⟨1, addr.ssi, ts, sdu⟩ : Message) ∈ heard tr := List.mem_filterMap.2 ⟨_, hk, rfl⟩
    have h3 : (⟨1, addr.ssi, ts, sdu⟩ : Message) ∈ (frames evs).filterMap (fun f => messageOf f.1 f.2.1 f.2.2) := by
      rw [heard_inv h]; exact List.mem_append_left _ h1
    obtain ⟨⟨a, t, pdu⟩, h4, h5⟩ := List.mem_filterMap.1 h3
    simp only [messageOf] at h5
    split at h5
    · rename_i d msg hb
      split at h5
      · simp only [Option.some.injEq, Message.mk.injEq] at h5
        obtain ⟨rfl, h6, rfl, rfl⟩ := h5
        refine ⟨a, pdu, ?_, h6, (carries_iff _ _ _).1 hb, ?_⟩
        · obtain ⟨e, h7, h8⟩ := List.mem_filterMap.1 h4
          cases e with
          | frame a t q => cases h8; exact h7
          | _ => cases h8
        · intro o ho
          obtain ⟨b, hb, hbo⟩ := List.mem_filterMap.1 ho
          cases b <;> simp at hbo
          subst hbo; rfl
      · cases h5
    · cases h5

/-! ## A history -/

/-- `Timely`, computed. -/
def timely (cl : Option Time) (s : St) : Ev → Bool
  | .tickStart now _ _ _ => decide now.valid && s.queue.isEmpty && (match cl with
    | none => true
    | some t => decide (t.addTimeslots 1 = .ok now))
  | .frame _ ts _ => match cl with
    | none => false
    | some t => ts == twoBefore t.t
  | _ => cl.isSome

theorem timely_ok {evs : List Ev} {s : St} {e : Ev} (h : timely (clock evs) s e = true) : Timely evs s e := by
  cases e with
  | tickStart now cmds cl b =>
    simp only [timely, Bool.and_eq_true, decide_eq_true_eq, List.isEmpty_iff] at h
    refine ⟨h.1.1, h.1.2, ?_⟩
    intro t ht
    rw [ht] at h
    simpa [Succ] using h.2
  | frame addr ts pdu =>
    simp only [timely] at h
    split at h
    · cases h
    · rename_i t ht
      exact ⟨t, ht, by simpa using h⟩
  | _ =>
    simp only [timely] at h
    intro e
    rw [e] at h
    cases h

/-- The latest tick, after an event. -/
def tickOf (cl : Option Time) : Ev → Option Time
  | .tickStart now _ _ _ => some now
  | _ => cl

/-- A list of events, each of them timely. -/
def St.liveRuns (c : Cfg) (cl : Option Time) (s : St) : List Ev → Option (St × List Call)
  | [] => some (s, [])
  | e :: es =>
    if timely cl s e then
      match s.step c e with
      | .ok (s', k) => (s'.liveRuns c (tickOf cl e) es).map fun q => (q.1, k ++ q.2)
      | .panic => none
    else none

theorem liveRuns_live {c : Cfg} {es evs : List Ev} {tr tr' : List Call} {s s' : St} (h : Live c evs tr s)
    (hr : s.liveRuns c (clock evs) es = some (s', tr')) : Live c (evs ++ es) (tr ++ tr') s' := by
  induction es generalizing evs tr s tr' with
  | nil => cases hr; simpa using h
  | cons e es ih =>
    simp only [St.liveRuns] at hr
    split at hr
    · rename_i ht
      split at hr
      · rename_i s1 k hk
        obtain ⟨⟨s2, k2⟩, h1, h2⟩ := Option.map_eq_some_iff.1 hr
        cases h2
        have := ih (h.step (timely_ok ht) hk) (by rw [clock_snoc]; cases e <;> exact h1)
        simpa using this
      · cases hr
    · cases hr

/-- A tick, and what is received with it, all delivered. -/
def tickWith (now : Time) (fs : List Ev) : List Ev :=
  .tickStart now [] ⟨2026, 27561600, 3600⟩ true :: fs ++ List.replicate 16 .deliver ++ [.tickEnd, .deliver, .deliver, .deliver, .deliver]

/-- U-DISCONNECT of the first call; U-TX CEASED. -/
def hangUp : List Bool := toBits 5 4 ++ toBits 14 4 ++ toBits 5 1 ++ [false]
def letGo : List Bool := toBits 5 9 ++ toBits 14 4 ++ [false]

/-- Two stations register in timeslot 1; one of them sets up a call there, which gets timeslot 2. -/
def callEvents : List Ev :=
  tickWith ⟨3, 1, 20, 1⟩ [.frame ⟨1001, .ssi, false⟩ 1 (blData false 1 (demand 1001)), .frame ⟨1002, .ssi, false⟩ 1 (blData false 1 (demand 1002))] ++
  tickWith ⟨4, 1, 20, 1⟩ [] ++ tickWith ⟨1, 2, 20, 1⟩ [] ++ tickWith ⟨2, 2, 20, 1⟩ [] ++
  tickWith ⟨3, 2, 20, 1⟩ [.frame ⟨1001, .ssi, false⟩ 1 (blData true 2 setup)]

/-- It ends the call in the timeslot of the call. -/
def endedEvents : List Ev := callEvents ++ tickWith ⟨4, 2, 20, 1⟩ [.frame ⟨1001, .ssi, false⟩ 2 (blData false 2 hangUp)]

/-- What call control sent, with the timeslots it is for. -/
def saidAt (tr : List Call) : List (Nat × CcOut) := tr.flatMap fun k => match k with
  | .cmce p e out => out.filterMap fun o => (hear o).map fun x => (stampOf p e o, x)
  | _ => []

def liveView (evs : List Ev) : Option (List (Nat × CcOut) × Nat) :=
  ((St.init sampleCfg).liveRuns sampleCfg none evs).map fun r => (saidAt r.2, r.1.queue.length)

/-- Or it stops talking there, and nobody else talks for five multiframes. -/
def quietEvents : List Ev := callEvents ++ tickWith ⟨4, 2, 20, 1⟩ [.frame ⟨1001, .ssi, false⟩ 2 (blData false 2 letGo)] ++
  (List.range 361).flatMap fun i => [.tickStart (fromInt (Time.toInt ⟨1, 3, 20, 1⟩ + i)) [] ⟨2026, 27561600, 3600⟩ true, .deliver, .deliver, .deliver]

theorem ended_view : liveView endedEvents = some ([
    (1, .open ⟨.both, 2, 4, 0, some 0, false⟩), (1, .dCallProceeding (.station 1001) 4),
    (1, .dConnect (.station 1001) 4 .granted true (some (4, 2))), (1, .dSetup (.group 91) 4 .grantedToOther 1001 (4, 2)),
    (4, .dRelease (.group 91) 4 .userRequested), (4, .close .both 2), (4, .macEnded 4 2)], 0) := by
  decide +kernel

theorem quiet_view : liveView quietEvents = some ([
    (1, .open ⟨.both, 2, 4, 0, some 0, false⟩), (1, .dCallProceeding (.station 1001) 4),
    (1, .dConnect (.station 1001) 4 .granted true (some (4, 2))), (1, .dSetup (.group 91) 4 .grantedToOther 1001 (4, 2)),
    (4, .dTxCeased (.group 91) 4 2), (4, .macReleased 4 2),
    (1, .dRelease (.group 91) 4 .expiryOfTimer), (1, .close .both 2), (1, .macEnded 4 2)], 0) := by
  decide +kernel

theorem view_live {evs : List Ev} {v : List (Nat × CcOut)} {n : Nat} (h : liveView evs = some (v, n)) :
    ∃ tr s, Live sampleCfg evs tr s ∧ saidAt tr = v := by
  obtain ⟨⟨s, tr⟩, h1, h2⟩ := Option.map_eq_some_iff.1 h
  cases h2
  exact ⟨tr, s, by simpa using liveRuns_live (.init (c := sampleCfg)) h1, rfl⟩

/-- **C92, finding.** A station sets up a call, for which it and its group go to timeslot 2, and ends it by a message it sends there: the
group is told in timeslot 4. -/
theorem c92_ended_witness : ∃ tr s, Live sampleCfg endedEvents tr s ∧ (1, .dSetup (.group 91) 4 .grantedToOther 1001 (4, 2)) ∈ saidAt tr ∧
    .frame ⟨1001, .ssi, false⟩ 2 (blData false 2 hangUp) ∈ endedEvents ∧ (4, .dRelease (.group 91) 4 .userRequested) ∈ saidAt tr ∧
    ∀ m ∈ saidAt tr, m.1 ≠ 2 := by
  obtain ⟨tr, s, h1, h2⟩ := view_live ended_view
  refine ⟨tr, s, h1, ?_⟩
  rw [h2]
  refine ⟨by simp, by simp [endedEvents, tickWith], by simp, ?_⟩
  decide

/-- **C92, finding.** The same when it stops talking there, and the hang time passes: the group is told in timeslot 1. -/
theorem c92_quiet_witness : ∃ tr s, Live sampleCfg quietEvents tr s ∧ (1, .dSetup (.group 91) 4 .grantedToOther 1001 (4, 2)) ∈ saidAt tr ∧
    .frame ⟨1001, .ssi, false⟩ 2 (blData false 2 letGo) ∈ quietEvents ∧ (1, .dRelease (.group 91) 4 .expiryOfTimer) ∈ saidAt tr ∧
    ∀ m ∈ saidAt tr, m.1 ≠ 2 := by
  obtain ⟨tr, s, h1, h2⟩ := view_live quiet_view
  refine ⟨tr, s, h1, ?_⟩
  rw [h2]
  refine ⟨by simp, by simp [quietEvents, tickWith], by simp, ?_⟩
  decide

/-- The events are sane. -/
example : ∀ e ∈ endedEvents, e.Sane sampleCfg := by
  intro e he
  simp only [endedEvents, callEvents, tickWith, List.mem_append, List.mem_cons, List.mem_replicate, List.not_mem_nil, or_false] at he
  have : (∃ addr ts pdu, e = .frame addr ts pdu ∧ addr.ssi < 2 ^ 24) ∨ (∀ addr ts pdu, e ≠ .frame addr ts pdu) ∧ ∀ ts x, e ≠ .toCmce ts x := by
    cases e with
    | frame addr ts pdu =>
      left
      refine ⟨addr, ts, pdu, rfl, ?_⟩
      simp only [Ev.frame.injEq, reduceCtorEq, false_or, or_false, and_false] at he
      rcases he with ((h | h) | h) | h <;> (obtain ⟨rfl, _⟩ := h; decide)
    | toCmce ts x => simp at he
    | _ => right; simp
  rcases this with ⟨addr, ts, pdu, rfl, h⟩ | ⟨h1, h2⟩
  · exact h
  · cases e with
    | frame addr ts pdu => exact absurd rfl (h1 addr ts pdu)
    | toCmce ts x => exact absurd rfl (h2 ts x)
    | _ => trivial

end Verif.Sig
