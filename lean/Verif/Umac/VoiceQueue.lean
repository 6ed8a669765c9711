import Verif.Umac.SchedSlotProps
import Verif.Umac.UmacLog
/-!
# The queue of voice blocks of a timeslot, call by call
-/
namespace Verif.Umac
open Verif.Bits Verif.Codec Verif.Tdma

/-- The blocks waiting on timeslot `t` after a call other than a tick; `on`: is there a circuit for the downlink? -/
def waits (t : Nat) (on : Bool) (q : List Block) : SchedEv → List Block
  | .voice t' b => if t' = t ∧ on = true then q ++ [b] else q
  | e => if e.switches t then [] else q

theorem step_queue {s s' : Sched} {e : SchedEv} {r : SchedRet} (h1 : s.step e = .ok (s', r)) (ht : e ≠ .tick) (i : Fin 4) :
    s'.circuits.txData i = waits (i.val + 1) (s.circuits.dl i).isSome (s.circuits.txData i) e ∧
    (e.switches (i.val + 1) = false → s'.circuits.dl i = s.circuits.dl i) := by
  have same : s'.circuits = s.circuits → (∀ t b, e ≠ .voice t b) → e.switches (i.val + 1) = false →
      s'.circuits.txData i = waits (i.val + 1) (s.circuits.dl i).isSome (s.circuits.txData i) e ∧
      (e.switches (i.val + 1) = false → s'.circuits.dl i = s.circuits.dl i) := by
    intro hc hv hs
    rw [hc]
    refine ⟨?_, fun _ => rfl⟩
    cases e with
    | voice t b => exact absurd rfl (hv t b)
    | _ => simp only [waits, hs]; rfl
  have pushed : ∀ {t : Nat} {el : DlElem} {q : Sched}, s.push t el = .ok q → q.circuits = s.circuits :=
    fun hq => (push_same hq).2.2.2.1
  cases e with
  | tick => exact absurd rfl ht
  | voice t b =>
    simp only [Sched.step] at h1
    rw [Out.bind_eq_ok] at h1; obtain ⟨c, hc, h1⟩ := h1
    cases h1
    rw [Out.ofRes_eq_ok] at hc
    unfold CircuitMgr.putBlock at hc
    rw [Res.bind_eq_ok] at hc; obtain ⟨k, hk, hc⟩ := hc
    simp only [waits]
    by_cases ht : t = i.val + 1
    · have hik := (idx_inj hk i).1 ht
      subst hik
      split at hc
      · rename_i ho
        cases hc
        simp [ht, ho, Slots.upd_self]
      · rename_i ho
        cases hc
        simp [ho]
    · have hik : i ≠ k := fun e => ht ((idx_inj hk i).2 e)
      rw [if_neg (fun h => ht h.1)]
      split at hc
      · cases hc; exact ⟨by simp only [Slots.upd_ne _ _ hik], fun _ => rfl⟩
      · cases hc; exact ⟨rfl, fun _ => rfl⟩
  | capReq t ssi code =>
    simp only [Sched.step] at h1
    rw [Out.bind_eq_ok] at h1; obtain ⟨q, hq, h1⟩ := h1
    cases h1
    exact same rfl (fun _ _ h => by cases h) rfl
  | grant t ad g =>
    simp only [Sched.step] at h1
    rw [Out.bind_eq_ok] at h1; obtain ⟨q, hq, h1⟩ := h1
    cases h1
    exact same (pushed hq) (fun _ _ h => by cases h) rfl
  | ack t ad =>
    simp only [Sched.step] at h1
    rw [Out.bind_eq_ok] at h1; obtain ⟨q, hq, h1⟩ := h1
    cases h1
    exact same (pushed hq) (fun _ _ h => by cases h) rfl
  | message t id rep pdu sdu =>
    simp only [Sched.step] at h1
    rw [Out.bind_eq_ok] at h1; obtain ⟨q, hq, h1⟩ := h1
    cases h1
    exact same (pushed hq) (fun _ _ h => by cases h) rfl
  | steal t id rep b =>
    simp only [Sched.step] at h1
    rw [Out.bind_eq_ok] at h1; obtain ⟨q, hq, h1⟩ := h1
    cases h1
    exact same (pushed hq) (fun _ _ h => by cases h) rfl
  | takeRa t ssi =>
    simp only [Sched.step, Sched.takeRa] at h1
    rw [Out.bind_eq_ok] at h1; obtain ⟨q, hq, h1⟩ := h1
    rw [Out.bind_eq_ok] at hq; obtain ⟨k, hk, hq⟩ := hq
    cases hq
    cases h1
    exact same rfl (fun _ _ h => by cases h) rfl
  | hang t b =>
    simp only [Sched.step, Out.ok.injEq] at h1
    cases h1
    exact same (setHang_circuits s t b) (fun _ _ h => by cases h) rfl
  | systemWide b =>
    simp only [Sched.step, Out.ok.injEq] at h1
    cases h1
    exact same rfl (fun _ _ h => by cases h) rfl
  | create d c =>
    simp only [Sched.step] at h1
    rw [Out.bind_eq_ok] at h1; obtain ⟨cm, hc, h1⟩ := h1
    cases h1
    rw [Out.ofRes_eq_ok, create_eq, (unhang_same s c.ts).2.2.2.2.2.2.1] at hc
    unfold CircuitMgr.place at hc
    cases d with
    | dl =>
      simp only at hc
      rw [Res.bind_eq_ok] at hc; obtain ⟨k, hk, hc⟩ := hc
      cases hc
      by_cases hik : i = k
      · subst hik
        have := (idx_inj hk i).2 rfl
        simp [waits, SchedEv.switches, this, Slots.upd_self]
      · have hts : c.ts ≠ i.val + 1 := fun e => hik ((idx_inj hk i).1 e)
        simp [waits, SchedEv.switches, hts, Slots.upd_ne _ _ hik]
    | ul =>
      simp only at hc
      rw [Res.bind_eq_ok] at hc; obtain ⟨k, hk, hc⟩ := hc
      cases hc; exact ⟨rfl, fun _ => rfl⟩
    | none => cases hc
    | both => cases hc
  | close d t =>
    simp only [Sched.step] at h1
    rw [Out.bind_eq_ok] at h1; obtain ⟨cm, hc, h1⟩ := h1
    cases h1
    rw [Out.ofRes_eq_ok, (unhang_same s t).2.2.2.2.2.2.1] at hc
    unfold CircuitMgr.close at hc
    cases d with
    | dl =>
      simp only at hc
      rw [Res.bind_eq_ok] at hc; obtain ⟨k, hk, hc⟩ := hc
      cases hc
      by_cases hik : i = k
      · subst hik
        have := (idx_inj hk i).2 rfl
        simp [waits, SchedEv.switches, this, Slots.upd_self]
      · have hts : t ≠ i.val + 1 := fun e => hik ((idx_inj hk i).1 e)
        simp [waits, SchedEv.switches, hts, Slots.upd_ne _ _ hik]
    | ul =>
      simp only at hc
      rw [Res.bind_eq_ok] at hc; obtain ⟨k, hk, hc⟩ := hc
      cases hc; exact ⟨rfl, fun _ => rfl⟩
    | none => cases hc
    | both => cases hc

/-- Nothing waits where no circuit is. -/
def Sched.Clean (s : Sched) (i : Fin 4) : Prop := s.circuits.dl i = none → s.circuits.txData i = []

theorem step_clean {s s' : Sched} {e : SchedEv} {r : SchedRet} (h1 : s.step e = .ok (s', r)) (ht : e ≠ .tick) {i : Fin 4} (h : s.Clean i) :
    s'.Clean i := by
  obtain ⟨q1, q2⟩ := step_queue h1 ht i
  intro hn
  by_cases hs : e.switches (i.val + 1) = true
  · rw [q1]
    cases e with
    | voice t b => cases hs
    | _ => simp only [waits, hs]; rfl
  · rw [Bool.not_eq_true] at hs
    rw [q2 hs] at hn
    rw [q1]
    cases e with
    | voice t b => simp only [waits, hn]; simpa using h hn
    | _ => simp only [waits, hs]; exact h hn

/-- Calls which neither end a slot, nor bring voice, nor switch: nothing changes. -/
theorem run_same {es : List SchedEv} {i : Fin 4} (hes : ∀ e ∈ es, e ≠ .tick ∧ (∀ b, e ≠ .voice (i.val + 1) b) ∧ e.switches (i.val + 1) = false) :
    ∀ {s s' : Sched} {cs : List (SchedEv × SchedRet)}, s.run es = .ok (s', cs) →
    s'.circuits.txData i = s.circuits.txData i ∧ s'.circuits.dl i = s.circuits.dl i := by
  induction es with
  | nil => intro s s' cs h; cases h; exact ⟨rfl, rfl⟩
  | cons e es ih =>
    intro s s' cs h
    obtain ⟨a, tr, h1, h2, _⟩ := srun_cons h
    obtain ⟨e1, e2, e3⟩ := hes e (by simp)
    obtain ⟨q1, q2⟩ := step_queue (s' := a.1) (r := a.2) h1 e1 i
    obtain ⟨r1, r2⟩ := ih (fun e he => hes e (by simp [he])) h2
    refine ⟨?_, by rw [r2, q2 e3]⟩
    rw [r1, q1]
    cases e with
    | voice t b =>
      simp only [waits]
      rw [if_neg]
      rintro ⟨rfl, _⟩
      exact e2 b rfl
    | _ => simp only [waits, e3]; rfl

/-- Calls which do not end a slot and bring no voice: nothing changes, or the queue is emptied. -/
theorem run_emptied {es : List SchedEv} {i : Fin 4} (hes : ∀ e ∈ es, e ≠ .tick ∧ ∀ b, e ≠ .voice (i.val + 1) b) :
    ∀ {s s' : Sched} {cs : List (SchedEv × SchedRet)}, s.run es = .ok (s', cs) →
    (s'.circuits.txData i = s.circuits.txData i ∨ s'.circuits.txData i = []) ∧ (s.Clean i → s'.Clean i) ∧
    ((∃ e ∈ es, e.switches (i.val + 1) = true) → s'.circuits.txData i = []) := by
  induction es with
  | nil => intro s s' cs h; cases h; exact ⟨.inl rfl, id, by simp⟩
  | cons e es ih =>
    intro s s' cs h
    obtain ⟨a, tr, h1, h2, _⟩ := srun_cons h
    obtain ⟨e1, e2⟩ := hes e (by simp)
    obtain ⟨q1, q2⟩ := step_queue (s' := a.1) (r := a.2) h1 e1 i
    obtain ⟨r1, r2, r3⟩ := ih (fun e he => hes e (by simp [he])) h2
    have key : (e.switches (i.val + 1) = true → a.1.circuits.txData i = []) ∧
        (e.switches (i.val + 1) = false → a.1.circuits.txData i = s.circuits.txData i) := by
      rw [q1]
      cases e with
      | voice t b =>
        refine ⟨fun h => (Bool.false_ne_true h).elim, fun _ => ?_⟩
        simp only [waits]
        rw [if_neg]
        rintro ⟨rfl, _⟩
        exact e2 b rfl
      | _ => refine ⟨fun h => ?_, fun h => ?_⟩ <;> simp only [waits, h] <;> rfl
    refine ⟨?_, fun hc => r2 (step_clean (s' := a.1) (r := a.2) h1 e1 hc), ?_⟩
    · rcases r1 with r1 | r1
      · cases hs : e.switches (i.val + 1) with
        | true => exact .inr (r1.trans (key.1 hs))
        | false => exact .inl (r1.trans (key.2 hs))
      · exact .inr r1
    · rintro ⟨e', he', hs⟩
      rcases List.mem_cons.1 he' with rfl | he'
      · rcases r1 with r1 | r1
        · exact r1.trans (key.1 hs)
        · exact r1
      · exact r3 ⟨e', he', hs⟩

/-! ## Bits and bytes of voice -/

theorem range_eights {α : Type} (f : Nat → α) : ∀ n, ((List.range n).flatMap fun k => (List.range 8).map fun b => f (k * 8 + b)) = (List.range (n * 8)).map f
  | 0 => rfl
  | n + 1 => by
    rw [List.range_succ (n := n), List.flatMap_append, range_eights f n, show (n + 1) * 8 = n * 8 + 8 by omega, List.range_add, List.map_append]
    simp [List.map_map, Function.comp_def]

theorem byte_bits : ∀ b0 b1 b2 b3 b4 b5 b6 b7 : Bool, toBits 8 (((List.range 8).map fun b =>
    (([b0, b1, b2, b3, b4, b5, b6, b7].getD b false).toNat) * 2 ^ (7 - b)).sum) = [b0, b1, b2, b3, b4, b5, b6, b7] := by decide

theorem byte_fun (f : Nat → Bool) : toBits 8 (((List.range 8).map fun b => (f b).toNat * 2 ^ (7 - b)).sum) = (List.range 8).map f :=
  byte_bits (f 0) (f 1) (f 2) (f 3) (f 4) (f 5) (f 6) (f 7)

/-- **C46.** Speech heard in the uplink is repeated only if it is a whole frame: thirty-five bytes, or at least 274 bits. -/
theorem c46_whole_frames (s s' : UmacBs) (ts : Nat) (data : List Nat) (out : List UmacOut) (h1 : data.length ≠ 35) (h2 : data.length < 274)
    (h : s.voiceUp ts data = .ok (s', out)) : s'.sched = s.sched := by
  have hp : packVoice data = none := by
    unfold packVoice
    rw [if_neg h1, if_pos (by simpa [tchSCap] using h2)]
  unfold UmacBs.voiceUp at h
  rw [Out.bind_eq_ok] at h; obtain ⟨dl, _, h⟩ := h
  rw [Out.bind_eq_ok] at h; obtain ⟨ul, _, h⟩ := h
  simp only [hp, ite_self] at h
  cases h
  unfold UmacBs.heard
  split <;> rfl

/-- Voice from the air, packed and taken out again, is the same. -/
theorem pack_bits {m : List Bool} (hm : m.length = 274) : ∃ b, packVoice (m.map Bool.toNat) = some b ∧ b.length = 35 ∧ voiceBits (some b) = m := by
  have hl : (m.map Bool.toNat).length = 274 := by simp [hm]
  refine ⟨(List.range 35).map fun k => ((List.range 8).map fun b =>
    if k * 8 + b < tchSCap then ((m.map Bool.toNat).getD (k * 8 + b) 0 % 2) * 2 ^ (7 - b) else 0).sum, ?_, ?_, ?_⟩
  · unfold packVoice
    rw [hl, if_neg (by decide), if_neg (by simp [tchSCap])]
  · simp
  · simp only [voiceBits, List.flatMap_map]
    have e : (fun k => toBits 8 ((List.range 8).map fun b =>
        if k * 8 + b < tchSCap then ((m.map Bool.toNat).getD (k * 8 + b) 0 % 2) * 2 ^ (7 - b) else 0).sum) =
        fun k => (List.range 8).map fun b => (fun j => m.getD j false) (k * 8 + b) := by
      funext k
      rw [← byte_fun]
      congr 2
      apply List.map_congr_left
      intro b _
      simp only [List.getD_eq_getElem?_getD, List.getElem?_map]
      by_cases h : k * 8 + b < m.length
      · rw [List.getElem?_eq_getElem h, if_pos (by rw [tchSCap]; omega)]
        simp
        cases m[k * 8 + b] <;> simp
      · rw [List.getElem?_eq_none (by omega), if_neg (by rw [tchSCap]; omega)]
        simp
    rw [e, range_eights (fun j => m.getD j false) 35]
    apply List.ext_getElem
    · simp [hm]
    · intro j h1 h2
      simp [List.getD_eq_getElem?_getD, List.getElem?_eq_getElem h2]

end Verif.Umac
