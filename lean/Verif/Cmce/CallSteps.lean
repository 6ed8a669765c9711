import Verif.Cmce.CallControl
import Verif.Cmce.CircuitsProps
import Verif.Core.TimeslotAllocProps
/-!
# What call control does, as a sequence of elementary steps: lemmas

Every event is a sequence of `Prim`s: a call starts, ends, its talker stops, somebody gets the floor, and so on. The
invariants of call control are then shown for each of these.
-/
namespace Verif.Cmce
open Tdma

/-! ## The timeslot allocator -/

/-- Which timeslots are taken by call control is exactly what `v` says. -/
def AllocIs (a : TsAlloc.Alloc) (v : Slots (Option CmceCircuit)) : Prop :=
  a.owners.length = 3 ∧ ∀ i : Fin 4, a.owner (i.val + 1) = if (v i).isSome then some .cmce else none

theorem allocIs_init : AllocIs .init (fun _ => none) := by
  refine ⟨rfl, ?_⟩
  decide

/-- A timeslot handed out was free. -/
theorem allocIs_any {a a' : TsAlloc.Alloc} {v : Slots (Option CmceCircuit)} (h : AllocIs a v) {ts : Nat}
    (ha : a.allocateAny .cmce = (a', some ts)) :
    ∃ i : Fin 4, ts = i.val + 1 ∧ i ≠ 0 ∧ v i = none ∧ ∀ k, AllocIs a' (v.upd i (some k)) := by
  have hs := TsAlloc.c05_step_refines a h.1 (.allocateAny .cmce)
  have hl := TsAlloc.step_length a (.allocateAny .cmce) h.1
  simp only [TsAlloc.step, ha] at hs hl
  generalize ho : a'.owner = held' at hs
  generalize ho2 : a.owner = held at hs
  cases hs with
  | alloc _ _ hr hf hlow =>
    refine ⟨⟨ts - 1, by omega⟩, by simp; omega, by intro e; have := congrArg Fin.val e; simp at this; omega, ?_, ?_⟩
    · have := h.2 ⟨ts - 1, by omega⟩
      have e : ts - 1 + 1 = ts := by omega
      simp only [e] at this
      rw [ho2, hf] at this
      split at this
      · cases this
      · rename_i hn; simpa using hn
    · intro k
      refine ⟨hl, ?_⟩
      intro j
      rw [ho]
      dsimp only
      have hj := h.2 j
      rw [ho2] at hj
      by_cases e : j.val + 1 = ts
      · have : j = ⟨ts - 1, by omega⟩ := Fin.ext (by simp; omega)
        rw [if_pos e, this, Slots.upd_self]; rfl
      · have : j ≠ ⟨ts - 1, by omega⟩ := by intro e2; have := congrArg Fin.val e2; simp at this; omega
        rw [if_neg e, Slots.upd_ne _ _ this, hj]

theorem allocIs_full {a a' : TsAlloc.Alloc} {v : Slots (Option CmceCircuit)} (h : AllocIs a v)
    (ha : a.allocateAny .cmce = (a', none)) : a' = a ∧ ∀ i : Fin 4, i ≠ 0 → (v i).isSome := by
  have hs := TsAlloc.c05_step_refines a h.1 (.allocateAny .cmce)
  simp only [TsAlloc.step, ha] at hs
  generalize ho : a'.owner = held' at hs
  generalize ho2 : a.owner = held at hs
  have h3 : ∀ i : Fin 4, i ≠ 0 → (v i).isSome := by
    cases hs with
    | allocFull _ hf =>
      intro i hi
      have := h.2 i
      rw [ho2] at this
      have h2 := hf (i.val + 1) (by have : i.val ≠ 0 := fun e => hi (Fin.ext e)
                                    omega) (by omega)
      rw [this] at h2
      revert h2
      split <;> simp_all
  refine ⟨?_, h3⟩
  obtain ⟨l⟩ := a
  obtain ⟨hl, _⟩ := h
  match l, hl with
  | [x, y, z], _ =>
    cases x <;> cases y <;> cases z <;> simp [TsAlloc.Alloc.allocateAny, TsAlloc.allocLoop] at ha
    exact ha.symm

theorem allocIs_release {a : TsAlloc.Alloc} {v : Slots (Option CmceCircuit)} (h : AllocIs a v) {i : Fin 4} (hv : (v i).isSome)
    (hi : i ≠ 0) : AllocIs (a.release .cmce (i.val + 1)).1 (v.upd i none) := by
  have hs := TsAlloc.c05_step_refines a h.1 (.release .cmce (i.val + 1))
  have hl := TsAlloc.step_length a (.release .cmce (i.val + 1)) h.1
  have h2 := h.2 i
  rw [if_pos hv] at h2
  simp only [TsAlloc.step] at hs hl
  generalize hr : a.release .cmce (i.val + 1) = r at hs hl
  obtain ⟨a', o⟩ := r
  simp only at hs hl ⊢
  generalize ho : a'.owner = held' at hs
  generalize ho2 : a.owner = held at hs
  rw [ho2] at h2
  have hi0 : i.val ≠ 0 := fun e => hi (Fin.ext e)
  cases hs with
  | release _ _ hr hh =>
    refine ⟨hl, ?_⟩
    intro j
    rw [ho]
    dsimp only
    have hj := h.2 j
    rw [ho2] at hj
    by_cases e : j = i
    · subst e; simp
    · have : ¬ j.val + 1 = i.val + 1 := fun e2 => e (Fin.ext (by omega))
      rw [if_neg this, Slots.upd_ne _ _ e, hj]
  | releaseNot _ _ _ hh => rw [h2] at hh; cases hh
  | releaseOther _ _ _ _ hh hne => rw [h2] at hh; cases hh; exact absurd rfl hne
  | releaseInvalid _ _ hr => omega

/-! ## The invariant -/

/-- The circuit manager as call control uses it: all circuits are for both directions. -/
structure MgrOk (m : Mgr) : Prop where
  inv : ∃ log, Inv m log
  ul : ∀ i, m.ulOnly i = none
  both : ∀ i k, m.dl i = some k → k.direction = .both
  zero : m.dl 0 = none

/-- What holds in every state of call control. -/
structure CcInv (s : Cc) : Prop where
  ok : s.calls.Ok
  setup : ∀ id c, s.calls.get id = some c → ∃ p, s.setups.get id = some p ∧ p.callId = id ∧ p.gssi = c.gssi
  noSetup : ∀ id, s.calls.get id = none → s.setups.get id = none
  circuit : ∀ id c, s.calls.get id = some c → ∃ i k, s.mgr.dl i = some k ∧ c.ts = i.val + 1 ∧ k.callId = id ∧ k.usage = c.usage
  floor : ∀ id c, s.calls.get id = some c → c.tx = c.hang.isNone
  mgr : MgrOk s.mgr
  alloc : AllocIs s.alloc s.mgr.dl

/-- Every circuit belongs to a call. -/
def Cc.NoLeak (s : Cc) : Prop := ∀ i k, s.mgr.dl i = some k → ∃ c, s.calls.get k.callId = some c ∧ c.ts = i.val + 1

theorem MgrOk.ts {m : Mgr} (h : MgrOk m) {i : Fin 4} {k : CmceCircuit} (hk : m.dl i = some k) : k.ts = i.val + 1 := by
  obtain ⟨_, hi⟩ := h.inv
  exact (hi.dl i k hk).1

theorem MgrOk.ne_zero {m : Mgr} (h : MgrOk m) {i : Fin 4} {k : CmceCircuit} (hk : m.dl i = some k) : i ≠ 0 := by
  rintro rfl; rw [h.zero] at hk; cases hk

theorem mgrOk_init : MgrOk .init := ⟨⟨[], inv_init⟩, fun _ => rfl, by simp [Mgr.init], rfl⟩

theorem ccInv_init (r : Nat → Bool) : CcInv (.init r) := by
  refine ⟨Assoc.ok_nil, ?_, ?_, ?_, ?_, mgrOk_init, allocIs_init⟩ <;> simp [Cc.init]

theorem noLeak_init (r : Nat → Bool) : (Cc.init r).NoLeak := by simp [Cc.NoLeak, Cc.init, Mgr.init]

/-! ## Elementary steps -/

/-- The manager after closing the circuit on index `i`. -/
def Mgr.closed (m : Mgr) (i : Fin 4) : Mgr := { m with txData := m.txData.upd i [], dl := m.dl.upd i none }

/-- The manager after making the circuit `k` on index `i`. -/
def Mgr.opened (m : Mgr) (i : Fin 4) (k : CmceCircuit) : Mgr :=
  { m with nextCallId := nextCallIdAfter m.nextCallId, nextUsage := nextUsageAfter m.nextUsage,
           txData := m.txData.upd i [], dl := m.dl.upd i (some k) }

/-- Messages that concern neither a circuit nor the floor. -/
def CcOut.Aside : CcOut → Prop
  | .netCallEnd _ => True
  | .dRelease (.station _) _ _ => True
  | _ => False

/-- What is sent when a call starts. -/
def startOut (routable : Nat → Bool) (k : CmceCircuit) (c : Call) : List CcOut :=
  match c.origin with
  | .ms caller =>
    [.open k.mac, .dCallProceeding (.station caller) k.callId,
      .dConnect (.station caller) k.callId .granted true (some (k.usage, k.ts)),
      .dSetup (.group c.gssi) k.callId .grantedToOther caller (k.usage, k.ts)] ++
    (if routable c.gssi then [.netGranted k.callId caller c.gssi k.ts] else [])
  | .net uuid =>
    [.open k.mac, .dSetup (.group c.gssi) k.callId .grantedToOther c.speaker (k.usage, k.ts),
      .dConnect (.group c.gssi) k.callId .grantedToOther false none, .netReady uuid k.callId k.ts k.usage]

/-- What is sent when a call ends. -/
def endOut (routable : Nat → Bool) (id : Nat) (c : Call) (cause : Cause) : List CcOut :=
  [.dRelease (.group c.gssi) id cause, .close .both c.ts, .macEnded id c.ts] ++
    (match c.origin with
      | .ms _ => if routable c.gssi then [.netEnded id c.ts] else []
      | .net _ => [])

/-- An elementary step; with the flag `m` also changes of the group memberships. -/
inductive Prim : Cc → Bool → List CcOut → Cc → Prop where
  | aside (s : Cc) {m : Bool} (o : CcOut) : o.Aside → Prim s m [o] s
  | members (s : Cc) (groups : Assoc Nat (List Nat)) (listeners : Assoc Nat Nat) :
      Prim s true [] { s with groups := groups, listeners := listeners }
  /-- a call starts -/
  | start (s : Cc) {m : Bool} (a : TsAlloc.Alloc) (i : Fin 4) (comm : Nat) (k : CmceCircuit) (c : Call) (p : Setup) :
      s.alloc.allocateAny .cmce = (a, some (i.val + 1)) → i ≠ 0 → s.mgr.dl i = none →
      k = ⟨s.mgr.dltime, .both, i.val + 1, s.mgr.nextCallId, s.mgr.nextUsage, comm⟩ →
      s.hasListener c.gssi = true → c.ts = i.val + 1 → c.usage = k.usage → c.tx = true → c.hang = none →
      ((∃ caller, c.origin = .ms caller ∧ c.speaker = caller ∧ c.brew = none) ∨ (∃ u, c.origin = .net u ∧ c.brew = some u)) →
      p = ⟨k.callId, .grantedToOther, c.speaker, c.gssi, none⟩ →
      Prim s m (startOut s.routable k c)
        { s with alloc := a, mgr := s.mgr.opened i k, setups := s.setups.insert k.callId p, calls := s.calls.insert k.callId c }
  /-- a call ends -/
  | stop (s : Cc) {m : Bool} (id : Nat) (c : Call) (i : Fin 4) (cause : Cause) :
      s.calls.get id = some c → c.ts = i.val + 1 →
      Prim s m (endOut s.routable id c cause)
        { s with mgr := s.mgr.closed i, alloc := (s.alloc.release .cmce (i.val + 1)).1,
                 setups := s.setups.erase id, calls := s.calls.erase id }
  /-- a circuit is closed because of its age, and with it the call of that number, if there is one -/
  | expire (s : Cc) {m : Bool} (i : Fin 4) (k : CmceCircuit) :
      s.mgr.dl i = some k → k.age s.now > 25920 →
      Prim s m ((match s.setups.get k.callId with
          | some p => [.dRelease (.group p.gssi) p.callId .expiryOfTimer]
          | none => []) ++ [.close .both (i.val + 1)])
        { s with mgr := s.mgr.closed i, alloc := (s.alloc.release .cmce (i.val + 1)).1,
                 setups := s.setups.erase k.callId, calls := s.calls.erase k.callId }
  /-- the talker stops -/
  | cease (s : Cc) {m : Bool} (id : Nat) (c : Call) (brew : Option Nat) (net : List CcOut) :
      s.calls.get id = some c → c.tx = true →
      (brew = c.brew ∧ net = (if s.routable c.gssi then [.netReleased id c.ts] else []) ∨ brew = none ∧ net = []) →
      Prim s m ([.dTxCeased (.group c.gssi) id c.ts, .macReleased id c.ts] ++ net)
        { s with calls := s.calls.insert id { c with tx := false, hang := some s.now, brew := brew } }
  /-- a station gets the floor -/
  | grant (s : Cc) {m : Bool} (id : Nat) (c : Call) (ssi : Nat) :
      s.calls.get id = some c → c.tx = false →
      Prim s m ([.dTxGranted (.station ssi) id .granted ssi c.ts, .dTxGranted (.group c.gssi) id .grantedToOther ssi c.ts,
            .macGranted id ssi c.gssi c.ts] ++ (if s.routable c.gssi then [.netGranted id ssi c.gssi c.ts] else []))
        { s with calls := s.calls.insert id { c with tx := true, hang := none, speaker := ssi, origin := c.origin.demanded ssi } }
  /-- a speaker from the network gets the floor -/
  | netGrant (s : Cc) {m : Bool} (id : Nat) (c : Call) (uuid speaker : Nat) :
      s.calls.get id = some c → c.tx = false →
      Prim s m [.dTxGranted (.group c.gssi) id .grantedToOther speaker c.ts, .macGranted id speaker c.gssi c.ts,
          .netReady uuid id c.ts c.usage]
        { s with calls := s.calls.insert id { c with
            speaker := speaker, tx := true, hang := none, brew := some uuid, origin := c.origin.speak uuid } }
  /-- a call is announced again -/
  | announce (s : Cc) {m : Bool} (i : Fin 4) (k : CmceCircuit) (c : Call) (p : Setup) :
      s.mgr.dl i = some k → s.calls.get k.callId = some c → c.tx = true → s.setups.get k.callId = some p →
      Prim s m [.dSetup (.group c.gssi) k.callId .grantedToOther p.caller (k.usage, k.ts)]
        { s with setups := s.setups.insert k.callId { p with grant := .grantedToOther } }

/-- Call control with its clock set. -/
def Cc.clock (s : Cc) (now : Time) : Cc := { s with now := now }

/-- Call control with the clock of the circuit manager set. -/
def Cc.mgrClock (s : Cc) (now : Time) : Cc := { s with mgr := { s.mgr with dltime := now } }

/-- A sequence of elementary steps. -/
inductive Prims : Bool → Cc → List CcOut → Cc → Prop where
  | nil {m : Bool} (s : Cc) : Prims m s [] s
  | cons {m : Bool} {s s1 s2 : Cc} {o1 o2 : List CcOut} : Prim s m o1 s1 → Prims m s1 o2 s2 → Prims m s (o1 ++ o2) s2

theorem Prim.one {m : Bool} {s s' : Cc} {o : List CcOut} (h : Prim s m o s') : Prims m s o s' := by
  have := Prims.cons h (.nil s')
  rwa [List.append_nil] at this

theorem Prims.trans {m : Bool} {s s1 s2 : Cc} {o1 o2 : List CcOut} (h1 : Prims m s o1 s1) (h2 : Prims m s1 o2 s2) : Prims m s (o1 ++ o2) s2 := by
  induction h1 with
  | nil => exact h2
  | cons hp _ ih => rw [List.append_assoc]; exact .cons hp (ih h2)

theorem Prim.mono {m : Bool} {s s' : Cc} {o : List CcOut} (h : Prim s m o s') : Prim s true o s' := by
  cases h with
  | aside o ha => exact .aside s o ha
  | members g l => exact .members s g l
  | start a i comm k c p h1 h2 h3 h4 h5 h6 h7 h8 h9 h10 h11 => exact .start s a i comm k c p h1 h2 h3 h4 h5 h6 h7 h8 h9 h10 h11
  | stop id c i cause h1 h2 => exact .stop s id c i cause h1 h2
  | expire i k h1 h2 => exact .expire s i k h1 h2
  | cease id c b n h1 h2 h3 => exact .cease s id c b n h1 h2 h3
  | grant id c ssi h1 h2 => exact .grant s id c ssi h1 h2
  | netGrant id c u sp h1 h2 => exact .netGrant s id c u sp h1 h2
  | announce i k c p h1 h2 h3 h4 => exact .announce s i k c p h1 h2 h3 h4

theorem Prims.mono {m : Bool} {s s' : Cc} {o : List CcOut} (h : Prims m s o s') : Prims true s o s' := by
  induction h with
  | nil => exact .nil _
  | cons hp _ ih => exact .cons hp.mono ih

/-- The numbers of the calls set up, in order. -/
def started (l : List CcOut) : List Nat := l.filterMap fun o => match o with
  | .dConnect _ id _ _ _ => some id
  | _ => none

/-- The effect of an event: a tick sets the clock, then that of the circuit manager; only updates
change memberships. -/
inductive Shape (s : Cc) : CcEv → List CcOut → Cc → Prop where
  | tick {now : Time} {o1 o2 : List CcOut} {s1 s2 : Cc} : started o1 = [] → Prims false (s.clock now) o1 s1 → Prims false (s1.mgrClock now) o2 s2 →
      Shape s (.tick now) (o1 ++ o2) s2
  | update {u : SubUpdate} {o : List CcOut} {s' : Cc} : Prims true s o s' → Shape s (.update u) o s'
  | other {e : CcEv} {o : List CcOut} {s' : Cc} : (∀ now, e ≠ .tick now) → (∀ u, e ≠ .update u) → Prims false s o s' → Shape s e o s'

end Verif.Cmce
