import Verif.Umac.UmacOrders
import Verif.Core.TdmaProps
/-!
# When the silence of a call is reported: specification and lemmas
-/
namespace Verif.Umac
open Verif.Tdma Verif.Codec

/-! ## Specification -/

/-- What is being waited for on the uplink of a timeslot: nothing since there is no call, nothing since nobody is
talking, nothing since the silence has been reported or the call is ending, or more voice after the voice at slot `l`. -/
inductive UlWatch where
  | closed
  | hanging
  | told
  | since (l : Int)
  deriving DecidableEq

/-- Voice at slot `n`. -/
def UlWatch.voice (n : Int) : UlWatch → UlWatch
  | .told => .since n
  | .since _ => .since n
  | w => w

/-- A call with the uplink open goes into this state. -/
def UlWatch.set (to : UlWatch) : UlWatch → UlWatch
  | .closed => .closed
  | _ => to

/-- The next slot is `n`: silence of more than three multiframes (216 slots) is reported. -/
def UlWatch.due (n : Int) : UlWatch → Prop
  | .since l => n - l > 216
  | _ => False

instance (n : Int) (w : UlWatch) : Decidable (w.due n) := by cases w <;> unfold UlWatch.due <;> infer_instance

/-- The slot number and what is waited for on timeslot `ts` after an event. -/
def UlWatch.after (ts : Nat) (p : Int × UlWatch) : UmacEv → Int × UlWatch
  | .tick _ => (p.1 + 1, if p.2.due (p.1 + 1) then .told else p.2)
  | .voiceUp t _ => (p.1, if t = ts then p.2.voice p.1 else p.2)
  | .voiceDown t _ => (p.1, if t = ts then p.2.voice p.1 else p.2)
  | .control (.open c) => (p.1, if c.ts = ts then .since p.1 else p.2)
  | .control (.close _ t) => (p.1, if t = ts then .closed else p.2)
  | .control (.released t) => (p.1, if t = ts then .set .hanging p.2 else p.2)
  | .control (.granted t) => (p.1, if t = ts then .set (.since p.1) p.2 else p.2)
  | .control (.ended t) => (p.1, if t = ts then .set .told p.2 else p.2)
  | _ => p

/-- What is waited for on timeslot `ts` after a history. -/
def watch (ts : Nat) (n : Int) (es : List UmacEv) : Int × UlWatch := es.foldl (UlWatch.after ts) (n, .closed)

/-- Circuits are opened and closed in both directions at once. -/
def MacCtl.Both : MacCtl → Prop
  | .open c => c.direction = .both
  | .close d _ => d = .both
  | _ => True

def UmacEv.Both : UmacEv → Prop
  | .control m => m.Both
  | _ => True

/-! ## Lemmas -/

theorem age_fromInt (l n : Int) (h0 : l ≤ n) (h1 : n ≤ l + 1000) : (fromInt l).age (fromInt n) = n - l := by
  have h := fromInt_add l (n - l) (by omega) (by omega)
  rw [show l + (n - l) = n by omega] at h
  exact (c03_diff_add _ _ (n - l) (fromInt_valid l) (by omega) (by omega) h).2

/-- What the state of the upper MAC says about what is waited for. -/
def Watches (s : UmacBs) (i : Fin 4) (n : Int) : UlWatch → Prop
  | .closed => s.sched.circuits.ul i = none
  | .hanging => (s.sched.circuits.ul i).isSome = true ∧ s.sched.hang i = true
  | .told => (s.sched.circuits.ul i).isSome = true ∧ s.sched.hang i = false ∧ s.lastVoice i = none
  | .since l => (s.sched.circuits.ul i).isSome = true ∧ s.sched.hang i = false ∧ s.lastVoice i = some (fromInt l) ∧ l ≤ n ∧ n ≤ l + 216

/-- How orders to both directions change the time voice was last heard. -/
def lastAfter (now : Time) (ts : Nat) (o : Option Time) : MacCtl → Option Time
  | .open c => if c.ts = ts then some now else o
  | .released t => if t = ts then none else o
  | .granted t => if t = ts then some now else o
  | .ended t => if t = ts then none else o
  | .close _ _ => o

theorem control_last {s s' : UmacBs} {m : MacCtl} (h : s.control m = .ok s') (hb : m.Both) (i : Fin 4) :
    (∀ d, m ≠ .close d (i.val + 1)) → s'.lastVoice i = lastAfter s.now (i.val + 1) (s.lastVoice i) m := by
  intro hm
  cases m with
  | «open» c =>
    have hd : c.direction = .both := hb
    simp only [UmacBs.control, Dir.split, hd, List.foldlM_cons, List.foldlM_nil, Out.pure_eq] at h
    rw [Out.bind_eq_ok] at h; obtain ⟨s1, h1, h⟩ := h
    rw [Out.bind_eq_ok] at h; obtain ⟨s2, h2, h⟩ := h
    cases h
    obtain ⟨k, rs, v, e, n, w, l⟩ := openOne_via h1
    obtain ⟨k', rs', v', e', n', w', l'⟩ := openOne_via h2
    rw [l', l, n]
    simp [lastAfter]
  | close d t =>
    have hd : d = .both := hb
    subst hd
    simp only [UmacBs.control, Dir.split, List.foldlM_cons, List.foldlM_nil, Out.pure_eq] at h
    rw [Out.bind_eq_ok] at h; obtain ⟨s1, h1, h⟩ := h
    rw [Out.bind_eq_ok] at h; obtain ⟨s2, h2, h⟩ := h
    cases h
    obtain ⟨r, v, n, w, l⟩ := closeOne_via h1
    obtain ⟨r', v', n', w', l'⟩ := closeOne_via h2
    have ht : t ≠ i.val + 1 := fun ht => hm .both (by rw [ht])
    rw [l', l]
    simp [lastAfter, ht]
  | released t => obtain ⟨r, v, n, w, l⟩ := hang_via h; rw [l]; rfl
  | granted t => obtain ⟨r, v, n, w, l⟩ := hang_via h; rw [l]; rfl
  | ended t => obtain ⟨r, v, n, w, l⟩ := hang_via h; rw [l]; rfl

theorem Watches.isSome {s : UmacBs} {i : Fin 4} {n : Int} {w : UlWatch} (h : Watches s i n w) (hw : w ≠ .closed) :
    (s.sched.circuits.ul i).isSome = true := by
  cases w with
  | closed => exact absurd rfl hw
  | hanging => exact h.1
  | told => exact h.1
  | since l => exact h.1

theorem Watches.silent {s : UmacBs} {i : Fin 4} {n : Int} {w : UlWatch} (h : Watches s i n w) :
    ({ s with now := fromInt (n + 1) } : UmacBs).silent i = true ↔ w.due (n + 1) := by
  cases w with
  | closed =>
    have h : s.sched.circuits.ul i = none := h
    simp [UmacBs.silent, h, UlWatch.due]
  | hanging => simp [UmacBs.silent, h.2, UlWatch.due]
  | told => simp [UmacBs.silent, h.2.2, UlWatch.due]
  | since l =>
    obtain ⟨h1, h2, h3, h4, h5⟩ := h
    simp only [UmacBs.silent, h1, h2, h3, UlWatch.due, Bool.not_false, Bool.and_self, Bool.true_and]
    rw [age_fromInt l (n + 1) (by omega) (by omega), decide_eq_true_iff, show ulInactivity = 216 from rfl]

/-- When nothing on the timeslot changes. -/
theorem Watches.same {s s' : UmacBs} {i : Fin 4} {n : Int} {w : UlWatch} (h : Watches s i n w)
    (h1 : s'.sched.circuits.ul i = s.sched.circuits.ul i) (h2 : s'.sched.hang i = s.sched.hang i) (h3 : s'.lastVoice i = s.lastVoice i) :
    Watches s' i n w := by
  cases w <;> simp only [Watches, h1, h2, h3] at h ⊢ <;> exact h

/-- When voice is heard. -/
theorem Watches.voice {s s' : UmacBs} {i : Fin 4} {n : Int} {w : UlWatch} (h : Watches s i n w)
    (h1 : s'.sched.circuits.ul i = s.sched.circuits.ul i) (h2 : s'.sched.hang i = s.sched.hang i)
    (h3 : (s.sched.circuits.ul i).isSome = true → s'.lastVoice i = some (fromInt n)) : Watches s' i n (w.voice n) := by
  cases w with
  | closed => simp only [Watches, UlWatch.voice, h1] at h ⊢; exact h
  | hanging => simp only [Watches, UlWatch.voice, h1, h2] at h ⊢; exact h
  | told => exact ⟨by rw [h1]; exact h.1, by rw [h2]; exact h.2.1, h3 h.1, by omega, by omega⟩
  | since l => exact ⟨by rw [h1]; exact h.1, by rw [h2]; exact h.2.1, h3 h.1, by omega, by omega⟩

theorem Watches.set {s s' : UmacBs} {i : Fin 4} {n : Int} {w to : UlWatch} (h : Watches s i n w)
    (h1 : s'.sched.circuits.ul i = s.sched.circuits.ul i)
    (h2 : (s'.sched.circuits.ul i).isSome = true → Watches s' i n to) : Watches s' i n (UlWatch.set to w) := by
  cases w with
  | closed => simp only [Watches, UlWatch.set, h1] at h ⊢; exact h
  | hanging => exact h2 (by rw [h1]; exact h.1)
  | told => exact h2 (by rw [h1]; exact h.1)
  | since l => exact h2 (by rw [h1]; exact h.1)

/-- How an event changes circuits, hang time and clock, in a run. -/
theorem run_ordered_step {brew : Bool} {carrier : Nat} {x : Time} (hx : x.valid) {scramb : Nat} {wide : Bool} {pre : Precomps}
    {s s' : UmacBs} {h : List (UmacEv × List UmacOut)} {e : UmacEv} {out : List UmacOut}
    (hr : UmacRun (.init brew carrier x scramb wide pre) h s) (ht : ∀ p ∈ h, p.1.Timed) (he : e.Timed) (hst : s.step e = .ok (s', out))
    (i : Fin 4) :
    (e.order = none → s'.sched.circuits.ul i = s.sched.circuits.ul i ∧ s'.sched.hang i = s.sched.hang i) ∧
    ∀ m, e.order = some m → s'.sched.circuits.ul i = ordered .ul (i.val + 1) (s.sched.circuits.ul i) m ∧
      s'.sched.hang i = orderedHang (i.val + 1) (s.sched.hang i) m := by
  obtain ⟨_, a1, a2, _⟩ := run_ordered hx hr ht i
  obtain ⟨_, b1, b2, _⟩ := run_ordered hx (hr.step hst) (by
    intro p hp
    rcases List.mem_append.1 hp with hp | hp
    · exact ht p hp
    · rw [List.mem_singleton.1 hp]; exact he) i
  refine ⟨fun ho => ?_, fun m ho => ?_⟩
  · have hh : orders (h ++ [(e, out)]) = orders h := by simp [orders, ho]
    rw [hh] at b1 b2
    exact ⟨b1.trans a1.symm, b2.trans a2.symm⟩
  · have hh : orders (h ++ [(e, out)]) = orders h ++ [m] := by simp [orders, ho]
    rw [hh] at b1 b2
    rw [a1, a2, b1, b2]
    simp [circuitBy, hangBy, List.foldl_append]

theorem watch_snoc (ts : Nat) (n : Int) (es : List UmacEv) (e : UmacEv) :
    watch ts n (es ++ [e]) = UlWatch.after ts (watch ts n es) e := by simp [watch, List.foldl_append]

theorem watch_now (ts : Nat) (n : Int) (es : List UmacEv) : (watch ts n es).1 = n + es.countP UmacEv.isTick := by
  have : ∀ (es : List UmacEv) (p : Int × UlWatch), (es.foldl (UlWatch.after ts) p).1 = p.1 + es.countP UmacEv.isTick := by
    intro es
    induction es with
    | nil => intro p; simp
    | cons e es ih =>
      intro p
      rw [List.foldl_cons, ih, List.countP_cons]
      cases e with
      | tick w => simp [UlWatch.after, UmacEv.isTick]; omega
      | control m => cases m <;> simp [UlWatch.after, UmacEv.isTick]
      | _ => simp [UlWatch.after, UmacEv.isTick]
  exact this es (n, .closed)

theorem run_watch {brew : Bool} {carrier : Nat} {x : Time} (hx : x.valid) {scramb : Nat} {wide : Bool} {pre : Precomps} {s : UmacBs}
    {h : List (UmacEv × List UmacOut)} (hr : UmacRun (.init brew carrier x scramb wide pre) h s) (ht : ∀ p ∈ h, p.1.Timed)
    (hb : ∀ p ∈ h, p.1.Both) (i : Fin 4) :
    Watches s i (watch (i.val + 1) x.toInt (h.map Prod.fst)).1 (watch (i.val + 1) x.toInt (h.map Prod.fst)).2 ∧
    s.now = fromInt (watch (i.val + 1) x.toInt (h.map Prod.fst)).1 := by
  generalize hs0 : UmacBs.init brew carrier x scramb wide pre = s0 at hr
  induction hr with
  | init =>
    subst hs0
    refine ⟨rfl, ?_⟩
    exact (fromInt_toInt hx).symm
  | step hr' hst ih =>
    rename_i h s s' e out
    subst hs0
    have ht' : ∀ p ∈ h, p.1.Timed := fun p hp => ht p (List.mem_append_left _ hp)
    obtain ⟨ihw, ihn⟩ := ih ht' (fun p hp => hb p (List.mem_append_left _ hp))
    have he : e.Timed := ht (e, out) (by simp)
    have heb : e.Both := hb (e, out) (by simp)
    obtain ⟨o1, o2⟩ := run_ordered_step hx hr' ht' he hst i
    refine ⟨?_, ?_⟩
    · rw [List.map_append, List.map_singleton, watch_snoc]
      generalize watch (i.val + 1) x.toInt (h.map Prod.fst) = p at ihw ihn ⊢
      obtain ⟨n, w⟩ := p
      simp only at ihw ihn
      cases e with
      | tick wd =>
        obtain ⟨u, hh⟩ := o1 rfl
        obtain ⟨cs, v, c, nn, _, l, _⟩ := tick_via hst
        rw [ihn, fromInt_add _ _ (by omega) (by omega)] at nn
        have nn := Res.ok.inj nn
        have hs := ihw.silent
        rw [nn] at hs
        have hl := l i
        simp only [UlWatch.after]
        by_cases hdue : w.due (n + 1)
        · rw [if_pos hdue]
          rw [if_pos (hs.2 hdue)] at hl
          cases w with
          | since k => exact ⟨by rw [u]; exact ihw.1, by rw [hh]; exact ihw.2.1, hl⟩
          | _ => exact hdue.elim
        · rw [if_neg hdue]
          rw [if_neg (fun h => hdue (hs.1 h))] at hl
          have hw := ihw.same u hh hl
          cases w with
          | since k =>
            refine ⟨hw.1, hw.2.1, hw.2.2.1, by have := hw.2.2.2.1; omega, ?_⟩
            simp only [UlWatch.due] at hdue
            omega
          | _ => exact hw
      | block c bits =>
        obtain ⟨u, hh⟩ := o1 rfl
        obtain ⟨cs, fs, v, q, k⟩ := rxBlock_rx hst
        exact ihw.same u hh (by rw [q.heard])
      | request q =>
        obtain ⟨u, hh⟩ := o1 rfl
        simp only [UmacBs.step] at hst
        rw [Out.bind_eq_ok] at hst; obtain ⟨s1, h1, hst⟩ := hst
        cases hst
        obtain ⟨cs, v, q1, c⟩ := request_via h1
        exact ihw.same u hh (by rw [q1.heard])
      | voiceDown t b =>
        obtain ⟨u, hh⟩ := o1 rfl
        simp only [UmacBs.step] at hst
        rw [Out.bind_eq_ok] at hst; obtain ⟨s1, h1, hst⟩ := hst
        cases hst
        obtain ⟨cs, v, c, _, _, ul, hul, l⟩ := voiceDown_via h1
        simp only [UlWatch.after]
        by_cases hts : t = i.val + 1
        · rw [if_pos hts]
          refine ihw.voice u hh ?_
          intro hopen
          have : ul = true := by
            simp only [CircuitMgr.isActive, Slots.idx_ok.2 hts, Res.bind_ok, Res.ok.injEq] at hul
            rw [← hul, hopen]
          rw [l i, if_pos ⟨this, hts⟩, ihn]
        · rw [if_neg hts]
          exact ihw.same u hh (by rw [l i, if_neg (fun h => hts h.2)])
      | voiceUp t data =>
        obtain ⟨u, hh⟩ := o1 rfl
        obtain ⟨cs, v, c, _, _, l, _⟩ := voiceUp_via hst
        simp only [UlWatch.after]
        by_cases hts : t = i.val + 1
        · rw [if_pos hts]
          refine ihw.voice u hh ?_
          intro _
          rw [l i, if_pos hts, ihn]
        · rw [if_neg hts]
          exact ihw.same u hh (by rw [l i, if_neg hts])
      | control m =>
        obtain ⟨u, hh⟩ := o2 m rfl
        simp only [UmacBs.step] at hst
        rw [Out.bind_eq_ok] at hst; obtain ⟨s1, h1, hst⟩ := hst
        cases hst
        have hl := control_last h1 heb i
        cases m with
        | «open» c =>
          have hd : c.direction = .both := heb
          have hl := hl (by simp)
          simp only [ordered, orderedHang, lastAfter, hd] at u hh hl
          simp only [UlWatch.after]
          by_cases hts : c.ts = i.val + 1
          · simp only [hts, if_true, true_and] at u hh hl ⊢
            refine ⟨by rw [u]; simp, by rw [hh]; simp, by rw [hl, ihn], by omega, by omega⟩
          · simp only [hts, if_false, false_and] at u hh hl ⊢
            exact ihw.same u hh hl
        | close d t =>
          have hd : d = .both := heb
          subst hd
          simp only [ordered, orderedHang] at u hh
          simp only [UlWatch.after]
          by_cases hts : t = i.val + 1
          · rw [if_pos hts]
            rw [if_pos ⟨hts, .inr trivial⟩] at u
            exact u
          · rw [if_neg hts]
            rw [if_neg (fun h => hts h.1)] at u hh
            exact ihw.same u hh (hl (by simp [hts]))
        | released t =>
          have hl := hl (by simp)
          simp only [ordered, orderedHang, lastAfter] at u hh hl
          simp only [UlWatch.after]
          by_cases hts : t = i.val + 1
          · simp only [hts, if_true] at hh hl ⊢
            exact ihw.set u (fun ho => ⟨ho, hh⟩)
          · simp only [hts, if_false] at hh hl ⊢
            exact ihw.same u hh hl
        | granted t =>
          have hl := hl (by simp)
          simp only [ordered, orderedHang, lastAfter] at u hh hl
          simp only [UlWatch.after]
          by_cases hts : t = i.val + 1
          · simp only [hts, if_true] at hh hl ⊢
            exact ihw.set u (fun ho => ⟨ho, hh, by rw [hl, ihn], by omega, by omega⟩)
          · simp only [hts, if_false] at hh hl ⊢
            exact ihw.same u hh hl
        | ended t =>
          have hl := hl (by simp)
          simp only [ordered, orderedHang, lastAfter] at u hh hl
          simp only [UlWatch.after]
          by_cases hts : t = i.val + 1
          · simp only [hts, if_true] at hh hl ⊢
            exact ihw.set u (fun ho => ⟨ho, hh, hl⟩)
          · simp only [hts, if_false] at hh hl ⊢
            exact ihw.same u hh hl
    · have k := (run_ordered hx (hr'.step hst) ht i).2.2.2
      rw [k, watch_now]
      congr 2
      simp only [slotsIn, List.countP_map]
      rfl

end Verif.Umac
