import Verif.Umac.UmacWatch
import Verif.Umac.UmacRxOut
import Verif.Umac.UmacFindings
import Mathlib.Data.List.Induction
/-!
# C50: the silence of a call is reported once, after three multiframes

While a circuit is open for the uplink and someone is talking, the upper MAC waits for voice. For every history of events:
exactly when more than 216 slots have passed since the last voice, call control is told, and told once.
-/
namespace Verif.Umac
open Verif.Tdma Verif.Codec

theorem run_last {s0 s : UmacBs} {h : List (UmacEv × List UmacOut)} {p : UmacEv × List UmacOut} (hr : UmacRun s0 (h ++ [p]) s) :
    ∃ s1, UmacRun s0 h s1 ∧ s1.step p.1 = .ok (s, p.2) := by
  generalize hl : h ++ [p] = l at hr
  cases hr with
  | init => simp at hl
  | step hr' hst =>
    obtain ⟨rfl, h2⟩ := List.append_inj' hl rfl
    cases h2
    exact ⟨_, hr', hst⟩

/-- C50. After every history: timeslot `ts` is reported silent by an event if and only if it is a tick at which silence is due
according to the specification `watch`, and it is reported once. -/
theorem c50_reports (brew : Bool) (carrier : Nat) (x : Time) (hx : x.valid) (scramb : Nat) (wide : Bool) (pre : Precomps)
    (hist : List (UmacEv × List UmacOut)) (s : UmacBs) (hr : UmacRun (.init brew carrier x scramb wide pre) hist s)
    (ht : ∀ p ∈ hist, p.1.Timed) (hb : ∀ p ∈ hist, p.1.Both) (e : UmacEv) (s' : UmacBs) (out : List UmacOut)
    (he : s.step e = .ok (s', out)) (ts : Nat) :
    (.inactive ts ∈ out ↔ e.isTick = true ∧ 1 ≤ ts ∧ ts ≤ 4 ∧
      (watch ts x.toInt (hist.map Prod.fst)).2.due ((watch ts x.toInt (hist.map Prod.fst)).1 + 1)) ∧
    out.count (.inactive ts) ≤ 1 := by
  have quiet : e.isTick = false → (.inactive ts ∉ out) →
      (.inactive ts ∈ out ↔ e.isTick = true ∧ 1 ≤ ts ∧ ts ≤ 4 ∧
        (watch ts x.toInt (hist.map Prod.fst)).2.due ((watch ts x.toInt (hist.map Prod.fst)).1 + 1)) ∧ out.count (.inactive ts) ≤ 1 := by
    intro h1 h2
    refine ⟨by simp [h1, h2], ?_⟩
    rw [List.count_eq_zero.2 h2]; omega
  cases e with
  | tick w =>
    obtain ⟨cs, v, c, nn, _, l, r, _, hout⟩ := tick_via he
    obtain ⟨L, hout, slots⟩ : ∃ L, out = (((List.finRange 4).filter ({ s with now := s'.now } : UmacBs).silent).map
        fun i => UmacOut.inactive (i.val + 1)) ++ L ∧ UmacOut.inactive ts ∉ L := by
      refine ⟨_, hout, ?_⟩
      cases r <;> simp
    have hmem : .inactive ts ∈ out ↔ ∃ i : Fin 4, ts = i.val + 1 ∧ ({ s with now := s'.now } : UmacBs).silent i = true := by
      rw [hout, List.mem_append, or_iff_left slots, List.mem_map]
      constructor
      · rintro ⟨i, hi, e⟩
        cases e
        exact ⟨i, rfl, by simpa using (List.mem_filter.1 hi).2⟩
      · rintro ⟨i, rfl, hi⟩
        exact ⟨i, List.mem_filter.2 ⟨List.mem_finRange i, hi⟩, rfl⟩
    refine ⟨?_, ?_⟩
    · rw [hmem]
      have key : ∀ i : Fin 4, ({ s with now := s'.now } : UmacBs).silent i = true ↔
          (watch (i.val + 1) x.toInt (hist.map Prod.fst)).2.due ((watch (i.val + 1) x.toInt (hist.map Prod.fst)).1 + 1) := by
        intro i
        obtain ⟨hw, hn⟩ := run_watch hx hr ht hb i
        rw [hn, fromInt_add _ _ (by omega) (by omega)] at nn
        rw [← Res.ok.inj nn]
        exact hw.silent
      constructor
      · rintro ⟨i, rfl, hi⟩
        exact ⟨rfl, by omega, by omega, (key i).1 hi⟩
      · rintro ⟨_, h1, h4, hd⟩
        obtain ⟨k, rfl⟩ : ∃ k, ts = k + 1 := ⟨ts - 1, by omega⟩
        exact ⟨⟨k, by omega⟩, rfl, (key ⟨k, by omega⟩).2 hd⟩
    · rw [hout, List.count_append, List.count_eq_zero.2 slots, Nat.add_zero]
      have hnd : (((List.finRange 4).filter ({ s with now := s'.now } : UmacBs).silent).map
          fun i => UmacOut.inactive (i.val + 1)).Nodup := by
        rw [List.Nodup, List.pairwise_map]
        refine List.Pairwise.imp ?_ ((List.nodup_finRange 4).filter _)
        intro a b hab e
        cases a; cases b
        simp at e hab
        omega
      exact List.nodup_iff_count.1 hnd _
  | block c bits =>
    exact quiet rfl (fun h => (rxBlock_out he) _ h)
  | request q =>
    simp only [UmacBs.step] at he
    rw [Out.bind_eq_ok] at he; obtain ⟨s1, h1, he⟩ := he
    cases he
    exact quiet rfl (by simp)
  | voiceDown t b =>
    simp only [UmacBs.step] at he
    rw [Out.bind_eq_ok] at he; obtain ⟨s1, h1, he⟩ := he
    cases he
    exact quiet rfl (by simp)
  | voiceUp t data =>
    obtain ⟨cs, v, c, _, _, l, ul, _, hout⟩ := voiceUp_via he
    refine quiet rfl ?_
    rw [hout]
    split <;> simp
  | control m =>
    simp only [UmacBs.step] at he
    rw [Out.bind_eq_ok] at he; obtain ⟨s1, h1, he⟩ := he
    cases he
    exact quiet rfl (by simp)

/-- The timeslot an order is about. -/
def MacCtl.ts : MacCtl → Nat
  | .open c => c.ts
  | .close _ t => t
  | .released t => t
  | .granted t => t
  | .ended t => t

/-- Events which concern the call on a timeslot: its voice and its orders. -/
def UmacEv.About (ts : Nat) : UmacEv → Prop
  | .voiceUp t _ => t = ts
  | .voiceDown t _ => t = ts
  | .control m => m.ts = ts
  | _ => False

/-- Events which count as voice: voice in either direction, the beginning of a call, the floor being granted. -/
def UmacEv.Voice (ts : Nat) : UmacEv → Prop
  | .voiceUp t _ => t = ts
  | .voiceDown t _ => t = ts
  | .control (.open c) => c.ts = ts
  | .control (.granted t) => t = ts
  | _ => False

/-- C50. What is waited for agrees with the orders: something is waited for while a circuit is open for the uplink,
and it is hang time while nobody talks. -/
theorem c50_waits (brew : Bool) (carrier : Nat) (x : Time) (hx : x.valid) (scramb : Nat) (wide : Bool) (pre : Precomps)
    (hist : List (UmacEv × List UmacOut)) (s : UmacBs) (hr : UmacRun (.init brew carrier x scramb wide pre) hist s)
    (ht : ∀ p ∈ hist, p.1.Timed) (hb : ∀ p ∈ hist, p.1.Both) (ts : Nat) (h1 : 1 ≤ ts) (h4 : ts ≤ 4) :
    ((watch ts x.toInt (hist.map Prod.fst)).2 = .closed ↔ circuitBy (orders hist) .ul ts = none) ∧
    (circuitBy (orders hist) .ul ts ≠ none →
      ((watch ts x.toInt (hist.map Prod.fst)).2 = .hanging ↔ hangBy (orders hist) ts = true)) := by
  obtain ⟨k, rfl⟩ : ∃ k, ts = k + 1 := ⟨ts - 1, by omega⟩
  obtain ⟨hw, _⟩ := run_watch hx hr ht hb ⟨k, by omega⟩
  obtain ⟨_, a1, a2, _⟩ := run_ordered hx hr ht ⟨k, by omega⟩
  simp only at hw a1 a2
  rw [← a1, ← a2]
  revert hw
  generalize watch (k + 1) x.toInt (hist.map Prod.fst) = p
  obtain ⟨n, w⟩ := p
  intro hw
  simp only at hw ⊢
  cases w with
  | closed => have hw : _ = none := hw; simp [hw]
  | hanging =>
    have := Option.isSome_iff_ne_none.1 hw.1
    simp [this, hw.2]
  | told =>
    have := Option.isSome_iff_ne_none.1 hw.1
    simp [this, hw.2.1]
  | since l =>
    have := Option.isSome_iff_ne_none.1 hw.1
    simp [this, hw.2.1]

theorem after_voice {ts : Nat} {n : Int} {w : UlWatch} {e : UmacEv} (he : e.Voice ts) (h0 : (UlWatch.after ts (n, w) e).2 ≠ .closed)
    (h1 : (UlWatch.after ts (n, w) e).2 ≠ .hanging) : UlWatch.after ts (n, w) e = (n, .since n) := by
  cases e with
  | tick _ => exact he.elim
  | block _ _ => exact he.elim
  | request _ => exact he.elim
  | voiceDown t b =>
    have he : t = ts := he
    simp only [UlWatch.after, he, if_true] at h0 h1 ⊢
    cases w <;> simp_all [UlWatch.voice]
  | voiceUp t b =>
    have he : t = ts := he
    simp only [UlWatch.after, he, if_true] at h0 h1 ⊢
    cases w <;> simp_all [UlWatch.voice]
  | control m =>
    cases m with
    | «open» c => have he : c.ts = ts := he; simp [UlWatch.after, he]
    | granted t =>
      have he : t = ts := he
      simp only [UlWatch.after, he, if_true] at h0 h1 ⊢
      cases w <;> simp_all [UlWatch.set]
    | close _ _ => exact he.elim
    | released _ => exact he.elim
    | ended _ => exact he.elim

theorem after_other {ts : Nat} {p : Int × UlWatch} {e : UmacEv} (he : ¬ e.About ts) (h : e.isTick = false) : UlWatch.after ts p e = p := by
  cases e with
  | tick _ => cases h
  | block _ _ => rfl
  | request _ => rfl
  | voiceDown t b => have he : t ≠ ts := he; simp [UlWatch.after, he]
  | voiceUp t b => have he : t ≠ ts := he; simp [UlWatch.after, he]
  | control m =>
    cases m with
    | «open» c => have he : c.ts ≠ ts := he; simp [UlWatch.after, he]
    | close _ t => have he : t ≠ ts := he; simp [UlWatch.after, he]
    | released t => have he : t ≠ ts := he; simp [UlWatch.after, he]
    | granted t => have he : t ≠ ts := he; simp [UlWatch.after, he]
    | ended t => have he : t ≠ ts := he; simp [UlWatch.after, he]

/-- Without anything about the timeslot, what is waited for is decided by the number of slots. -/
theorem fold_quiet {ts : Nat} {n : Int} (es : List UmacEv) (hq : ∀ e ∈ es, ¬ e.About ts) :
    es.foldl (UlWatch.after ts) (n, .since n) =
      (n + es.countP UmacEv.isTick, if 217 ≤ es.countP UmacEv.isTick then .told else .since n) := by
  induction es using List.reverseRecOn with
  | nil => simp
  | append_singleton es e ih =>
    rw [List.foldl_append, ih (fun e he => hq e (List.mem_append_left _ he)), List.countP_append]
    cases hk : e.isTick with
    | false =>
      simp only [List.foldl_cons, List.foldl_nil, List.countP_cons, List.countP_nil, hk, Bool.false_eq_true, if_false, Nat.add_zero]
      exact after_other (hq e (by simp)) hk
    | true =>
      cases e with
      | tick w =>
        simp only [List.foldl_cons, List.foldl_nil, List.countP_cons, List.countP_nil, hk, if_true, UlWatch.after, Nat.zero_add]
        refine Prod.ext (by simp only []; omega) ?_
        simp only []
        by_cases h1 : 217 ≤ es.countP UmacEv.isTick
        · rw [if_pos h1, if_neg (by simp [UlWatch.due]), if_pos (by omega)]
        · rw [if_neg h1]
          by_cases h2 : 217 ≤ es.countP UmacEv.isTick + 1
          · rw [if_pos h2, if_pos (by simp only [UlWatch.due]; omega)]
          · rw [if_neg h2, if_neg (by simp only [UlWatch.due]; omega)]
      | _ => cases hk

/-- C50. After voice on a timeslot whose uplink is open outside hang time, as long as nothing else happens to this call: the
silence is not reported before 217 slots have passed, and it is reported once when they have. -/
theorem c50_once (brew : Bool) (carrier : Nat) (x : Time) (hx : x.valid) (scramb : Nat) (wide : Bool) (pre : Precomps)
    (h1 h2 : List (UmacEv × List UmacOut)) (e : UmacEv) (out : List UmacOut) (s : UmacBs)
    (hr : UmacRun (.init brew carrier x scramb wide pre) (h1 ++ [(e, out)] ++ h2) s)
    (ht : ∀ p ∈ h1 ++ [(e, out)] ++ h2, p.1.Timed) (hb : ∀ p ∈ h1 ++ [(e, out)] ++ h2, p.1.Both)
    (ts : Nat) (hts1 : 1 ≤ ts) (hts4 : ts ≤ 4) (he : e.Voice ts)
    (hopen : circuitBy (orders (h1 ++ [(e, out)])) .ul ts ≠ none) (hhang : hangBy (orders (h1 ++ [(e, out)])) ts = false)
    (hq : ∀ p ∈ h2, ¬ p.1.About ts) :
    (slotsIn h2 < 217 → (h2.flatMap Prod.snd).count (.inactive ts) = 0) ∧
    (217 ≤ slotsIn h2 → (h2.flatMap Prod.snd).count (.inactive ts) = 1) := by
  have hpre : ∃ s1, UmacRun (.init brew carrier x scramb wide pre) (h1 ++ [(e, out)]) s1 := by
    clear hq ht hb
    induction h2 using List.reverseRecOn generalizing s with
    | nil => exact ⟨s, by simpa using hr⟩
    | append_singleton h2 p ih =>
      rw [← List.append_assoc] at hr
      obtain ⟨s1, hr1, _⟩ := run_last hr
      exact ih s1 hr1
  obtain ⟨s1, hr1⟩ := hpre
  have ht1 : ∀ p ∈ h1 ++ [(e, out)], p.1.Timed := fun p hp => ht p (List.mem_append_left _ hp)
  have hb1 : ∀ p ∈ h1 ++ [(e, out)], p.1.Both := fun p hp => hb p (List.mem_append_left _ hp)
  obtain ⟨w1, w2⟩ := c50_waits brew carrier x hx scramb wide pre _ s1 hr1 ht1 hb1 ts hts1 hts4
  have hw : watch ts x.toInt ((h1 ++ [(e, out)]).map Prod.fst) =
      ((watch ts x.toInt (h1.map Prod.fst)).1, .since (watch ts x.toInt (h1.map Prod.fst)).1) := by
    rw [List.map_append, List.map_singleton, watch_snoc] at w1 w2 ⊢
    refine after_voice he (fun h => hopen (w1.1 h)) (fun h => ?_)
    rw [(w2 hopen).1 h] at hhang
    cases hhang
  generalize (watch ts x.toInt (h1.map Prod.fst)).1 = n at hw
  have hsl : ∀ l : List (UmacEv × List UmacOut), slotsIn l = (l.map Prod.fst).countP UmacEv.isTick := by
    intro l; rw [List.countP_map]; rfl
  have key : (h2.flatMap Prod.snd).count (.inactive ts) = if 217 ≤ slotsIn h2 then 1 else 0 := by
    induction h2 using List.reverseRecOn generalizing s with
    | nil => simp [slotsIn]
    | append_singleton h2 p ih =>
      rw [← List.append_assoc] at hr ht hb
      obtain ⟨s2, hr2, hst⟩ := run_last hr
      have ht2 : ∀ p ∈ h1 ++ [(e, out)] ++ h2, p.1.Timed := fun p hp => ht p (List.mem_append_left _ hp)
      have hb2 : ∀ p ∈ h1 ++ [(e, out)] ++ h2, p.1.Both := fun p hp => hb p (List.mem_append_left _ hp)
      have hq2 : ∀ p ∈ h2, ¬ p.1.About ts := fun p hp => hq p (List.mem_append_left _ hp)
      have ih := ih s2 hr2 ht2 hb2 hq2
      obtain ⟨r1, r2⟩ := c50_reports brew carrier x hx scramb wide pre _ s2 hr2 ht2 hb2 _ _ _ hst ts
      have hfold : watch ts x.toInt ((h1 ++ [(e, out)] ++ h2).map Prod.fst) =
          (n + slotsIn h2, if 217 ≤ slotsIn h2 then .told else .since n) := by
        rw [List.map_append, watch, List.foldl_append]
        rw [watch] at hw
        rw [hw, hsl]
        refine fold_quiet _ ?_
        intro e' he'
        obtain ⟨p', hp', rfl⟩ := List.mem_map.1 he'
        exact hq2 p' hp'
      rw [hfold] at r1
      have hslot : slotsIn (h2 ++ [p]) = slotsIn h2 + p.1.isTick.toNat := by
        simp only [slotsIn, List.countP_append, List.countP_cons, List.countP_nil]
        cases p.1.isTick <;> rfl
      rw [List.flatMap_append, List.count_append, ih, hslot]
      simp only [List.flatMap_cons, List.flatMap_nil, List.append_nil]
      have hcnt : (UmacOut.inactive ts ∈ p.2 → p.2.count (.inactive ts) = 1) ∧ (UmacOut.inactive ts ∉ p.2 → p.2.count (.inactive ts) = 0) := by
        refine ⟨fun h => ?_, fun h => List.count_eq_zero.2 h⟩
        have := List.count_pos_iff.2 h
        omega
      cases hk : p.1.isTick with
      | false =>
        rw [hcnt.2 (fun h => by have := (r1.1 h).1; rw [hk] at this; cases this)]
        simp
      | true =>
        by_cases hn : slotsIn h2 = 216
        · have : UmacOut.inactive ts ∈ p.2 := by
            refine r1.2 ⟨hk, hts1, hts4, ?_⟩
            simp only
            rw [if_neg (by omega)]
            simp only [UlWatch.due]
            omega
          rw [hcnt.1 this, if_neg (by omega), if_pos (by simp only [Bool.toNat_true]; omega)]
        · have : UmacOut.inactive ts ∉ p.2 := by
            intro h
            have := (r1.1 h).2.2.2
            simp only at this
            by_cases h217 : 217 ≤ slotsIn h2
            · rw [if_pos h217] at this; exact this
            · rw [if_neg h217] at this
              simp only [UlWatch.due] at this
              omega
          rw [hcnt.2 this]
          simp only [Bool.toNat_true]
          by_cases h217 : 217 ≤ slotsIn h2
          · rw [if_pos h217, if_pos (by omega)]
          · rw [if_neg h217, if_neg (by omega)]
  rw [key]
  exact ⟨fun h => if_neg (by omega), fun h => if_pos h⟩

/-- A circuit in both directions on timeslot 2. -/
def sampleCircuit : Circuit := ⟨.both, 2, 4, 0, some 0, false⟩

/-- A call with voice for a while, then silence. -/
def silentCall (n : Nat) : List UmacEv :=
  [.tick true, .control (.open sampleCircuit)] ++ uticks 4 ++ [.voiceUp 2 (List.replicate 274 0)] ++ uticks n

set_option maxRecDepth 10000 in
/-- Non-vacuity: the call of the specification and that of the model, reported in the 217th slot and not before. -/
example : ∃ hist s, UmacRun sampleMac hist s ∧ hist.map Prod.fst = silentCall 217 ∧
    (decide (hist.countP (fun p => decide (UmacOut.inactive 2 ∈ p.2)) = 1) && decide (hist.getLast?.map (fun p => decide (UmacOut.inactive 2 ∈ p.2)) = some true) &&
      decide (circuitBy (orders hist) .ul 2 ≠ none) && decide (hangBy (orders hist) 2 = false)) = true :=
  ucheck_run _ (by decide +kernel)

/-- Non-vacuity: a call in hang time is not reported, and a new floor starts a new wait. -/
example : ((watch 2 0 (silentCall 100 ++ [.control (.released 2)] ++ uticks 300)).2 = .hanging) ∧
    (watch 2 0 (silentCall 100 ++ [.control (.released 2)] ++ uticks 300 ++ [.control (.granted 2)])).2 = .since 405 ∧
    (watch 2 0 (silentCall 300)).2 = .told ∧ (watch 3 0 (silentCall 300)).2 = .closed := by decide +kernel

end Verif.Umac
