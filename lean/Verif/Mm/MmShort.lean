import Verif.Mm.MmEffects
import Verif.Cmce.CallShort
/-!
# Mobility management keeps numbers of 24 bits: lemmas
-/
namespace Verif.Mm
open Verif.Config (Registry)
open Verif.Cmce (SubUpdate mem_insert_cases)
open Verif.Codec

/-- Subscribers and groups have numbers of 24 bits. -/
structure RegShort (r : Registry) : Prop where
  subs : ∀ e ∈ r.subscribers, e.1 < 2 ^ 24
  groups : ∀ g ∈ r.allGroups, g < 2 ^ 24

theorem RegShort.registered {r : Registry} (h : RegShort r) {i : Nat} (hi : r.isRegistered i = true) : i < 2 ^ 24 := by
  unfold Registry.isRegistered at hi
  obtain ⟨v, hv⟩ := Option.isSome_iff_exists.1 hi
  exact h.subs (i, v) (Assoc.mem_of_get hv)

theorem RegShort.hasMembers {r : Registry} (h : RegShort r) {g : Nat} (hg : r.hasGroupMembers g = true) : g < 2 ^ 24 :=
  h.groups g (List.contains_iff_mem.1 hg)

theorem regShort_new : RegShort Registry.new := ⟨by simp [Registry.new], by simp [Registry.new]⟩

theorem mem_setRemove {s : List Nat} {g x : Nat} (h : x ∈ Registry.setRemove s g) : x ∈ s := (List.mem_filter.1 h).1

theorem mem_dropGroups (subs : Assoc Nat (List Nat)) : ∀ (gs : List Nat) {all : List Nat} {x : Nat},
    x ∈ Registry.dropGroups subs all gs → x ∈ all
  | [], _, _, h => h
  | g :: gs, all, x, h => by
    have := mem_dropGroups subs gs h
    split at this
    · exact this
    · exact mem_setRemove this

theorem RegShort.deregister {r : Registry} (h : RegShort r) (i : Nat) : RegShort (r.deregister i) := by
  unfold Registry.deregister
  split
  · exact ⟨fun e he => h.subs e (Assoc.mem_erase.1 he).1, fun g hg => h.groups g (mem_dropGroups _ _ hg)⟩
  · exact h

theorem RegShort.put {r : Registry} (h : RegShort r) {i : Nat} (hi : i < 2 ^ 24) (gs : List Nat) :
    ∀ e ∈ r.subscribers.insert i gs, e.1 < 2 ^ 24 := by
  intro e he
  rcases mem_insert_cases he with rfl | he
  · exact hi
  · exact h.subs e he

theorem RegShort.register {r : Registry} (h : RegShort r) {i : Nat} (hi : i < 2 ^ 24) : RegShort (r.register i) :=
  ⟨(h.deregister i).put hi _, (h.deregister i).groups⟩

theorem RegShort.ensure {r : Registry} (h : RegShort r) {i : Nat} (hi : i < 2 ^ 24) : RegShort (r.ensure i) := by
  unfold Registry.ensure
  split
  · exact h
  · exact ⟨h.put hi _, h.groups⟩

theorem RegShort.affiliate {r : Registry} (h : RegShort r) {i g : Nat} (hi : i < 2 ^ 24) (hg : g < 2 ^ 24) : RegShort (r.affiliate i g) := by
  refine ⟨(h.ensure hi).put hi _, ?_⟩
  intro x hx
  simp only [Registry.affiliate, Registry.setInsert] at hx
  split at hx
  · exact (h.ensure hi).groups x hx
  · rcases List.mem_cons.1 hx with rfl | hx
    · exact hg
    · exact (h.ensure hi).groups x hx

theorem RegShort.deaffiliate {r : Registry} (h : RegShort r) {i : Nat} (hi : i < 2 ^ 24) (g : Nat) : RegShort (r.deaffiliate i g) := by
  unfold Registry.deaffiliate
  simp only
  split
  · refine ⟨(h.ensure hi).put hi _, ?_⟩
    intro x hx
    split at hx
    · exact (h.ensure hi).groups x hx
    · exact (h.ensure hi).groups x (mem_setRemove hx)
  · exact h.ensure hi

theorem RegShort.deaffiliateAll {i : Nat} (hi : i < 2 ^ 24) : ∀ (gs : List Nat) {r : Registry}, RegShort r →
    RegShort (gs.foldl (fun r g => r.deaffiliate i g) r)
  | [], _, h => h
  | g :: gs, _, h => RegShort.deaffiliateAll hi gs (h.deaffiliate hi g)

/-! ## What is sent to call control -/

/-- The groups of an update are short. -/
def OutShort (out : List MmOut) : Prop := ∀ u, MmOut.cmce u ∈ out → u.Short

theorem outShort_append {a b : List MmOut} (ha : OutShort a) (hb : OutShort b) : OutShort (a ++ b) := by
  intro u hu
  rcases List.mem_append.1 hu with h | h
  · exact ha u h
  · exact hb u h

theorem outShort_emit (c : Brew.Cfg) {u : SubUpdate} (hu : u.Short) : OutShort (emit c u) := by
  refine outShort_append ?_ ?_
  · intro v hv
    split at hv
    · cases u <;> simp only at hv <;> split at hv <;> simp at hv
    · simp at hv
  · intro v hv
    simp only [List.mem_singleton, MmOut.cmce.injEq] at hv
    rw [hv]; exact hu

theorem outShort_emitGroups (c : Brew.Cfg) {u : List Nat → SubUpdate} {gs : List Nat} (hu : (u gs).Short) : OutShort (emitGroups c u gs) := by
  unfold emitGroups
  split
  · intro v hv; simp at hv
  · exact outShort_emit c hu

theorem addClient_short (c : Brew.Cfg) {s : Mm} (h : RegShort s.registry) {i : Nat} (hi : i < 2 ^ 24) :
    RegShort (s.addClient c i).1.registry ∧ OutShort (s.addClient c i).2 :=
  ⟨h.register hi, outShort_append (a := [_]) (by intro v hv; simp at hv) (outShort_emit c (u := .register i) trivial)⟩

/-- The registry and the groups joined, in the loop over the groups of a message. -/
structure AttachShort (a : Attaching) : Prop where
  reg : RegShort a.mm.registry
  events : OutShort a.events
  aff : ∀ g ∈ a.aff, g < 2 ^ 24

theorem AttachShort.entry {a : Attaching} (h : AttachShort a) {i : Nat} (hi : i < 2 ^ 24) {x : GroupUplink} (hx : x.InRange) :
    AttachShort (a.entry i x) := by
  unfold Attaching.entry
  split
  · exact h
  rename_i g hg
  have hg' : g < 2 ^ 24 := by
    have := hx.1
    exact this g hg
  split
  · exact h
  split
  · exact h
  split
  · refine ⟨?_, h.events, h.aff⟩
    simp only
    split
    · exact h.reg.deaffiliate hi g
    · exact h.reg
  · refine ⟨?_, outShort_append h.events (by intro v hv; simp at hv), ?_⟩
    · simp only
      split
      · exact h.reg.affiliate hi hg'
      · exact h.reg
    · simp only
      split
      · intro y hy
        rcases List.mem_append.1 hy with hy | hy
        · exact h.aff y hy
        · rw [List.mem_singleton.1 hy]; exact hg'
      · exact h.aff

theorem AttachShort.entries {i : Nat} (hi : i < 2 ^ 24) : ∀ (xs : List GroupUplink) {a : Attaching}, (∀ x ∈ xs, x.InRange) → AttachShort a →
    AttachShort (xs.foldl (Attaching.entry i) a)
  | [], _, _, h => h
  | x :: xs, _, hx, h => AttachShort.entries hi xs (fun y hy => hx y (.tail _ hy)) (h.entry hi (hx x (.head _)))

theorem attachDetach_short (c : Brew.Cfg) {s : Mm} (h : RegShort s.registry) {i : Nat} (hi : i < 2 ^ 24) {xs : List GroupUplink}
    (hx : ∀ x ∈ xs, x.InRange) : RegShort (s.attachDetach c i xs).1.registry ∧ OutShort (s.attachDetach c i xs).2.1 := by
  have ha := AttachShort.entries hi xs hx (a := ⟨s, [], [], [], []⟩) ⟨h, by intro v hv; simp at hv, by simp⟩
  exact ⟨ha.reg, outShort_append (outShort_append ha.events (outShort_emitGroups c (u := .affiliate i) ha.aff))
    (outShort_emitGroups c (u := .deaffiliate i) trivial)⟩

theorem demandGroups_short (c : Brew.Cfg) {s : Mm} (h : RegShort s.registry) {i : Nat} (hi : i < 2 ^ 24) {d : Option LocationDemand}
    (hx : EntriesOk (demandEntries d)) : RegShort (s.demandGroups c i d).1.registry ∧ OutShort (s.demandGroups c i d).2.1 := by
  match d with
  | none => exact ⟨h, by intro v hv; simp [Mm.demandGroups] at hv⟩
  | some ⟨m, none⟩ => exact ⟨h, by intro v hv; simp [Mm.demandGroups] at hv⟩
  | some ⟨m, some xs⟩ => exact attachDetach_short c h hi hx.2

theorem outShort_answer (hd i : Nat) (b : List Bool) : OutShort [.answer hd i b] := by intro v hv; simp at hv

theorem itsiDetach_short (c : Brew.Cfg) {s : Mm} (h : RegShort s.registry) (i : Nat) :
    RegShort (s.itsiDetach c i).1.registry ∧ OutShort (s.itsiDetach c i).2 := by
  unfold Mm.itsiDetach
  split
  · exact ⟨h.deregister i, outShort_append (a := [_]) (by intro v hv; simp at hv)
      (outShort_append (outShort_emitGroups c (u := .deaffiliate i) trivial) (outShort_emit c trivial))⟩
  · exact ⟨h, by intro v hv; simp at hv⟩

theorem startOver_short (c : Brew.Cfg) {s : Mm} (h : RegShort s.registry) {i : Nat} (hi : i < 2 ^ 24) :
    RegShort (s.startOver c i).1.registry ∧ OutShort (s.startOver c i).2 := by
  unfold Mm.startOver
  split
  · exact addClient_short c h hi
  · exact ⟨RegShort.deaffiliateAll hi _ h, outShort_append (a := [_]) (by intro v hv; simp at hv)
      (outShort_emitGroups c (u := .deaffiliate i) trivial)⟩

theorem locationUpdate_short {c : Brew.Cfg} {s s' : Mm} (h : RegShort s.registry) {hd i : Nat} (hi : i < 2 ^ 24) {x : ULocationUpdateDemand}
    (hx : EntriesOk (demandEntries x.groupDemand)) {out : List MmOut} (hr : s.locationUpdate c hd i x = .ok (s', out)) :
    RegShort s'.registry ∧ OutShort out := by
  unfold Mm.locationUpdate at hr
  split at hr
  · simp only [Res.bind_eq_ok, Res.ok.injEq] at hr
    obtain ⟨sdu, _, cmd, hcmd, e⟩ := hr
    cases e
    have hc : OutShort cmd := by
      unfold sendCommand at hcmd
      split at hcmd
      · simp only [Res.bind_eq_ok, Res.ok.injEq] at hcmd
        obtain ⟨b, _, rfl⟩ := hcmd
        exact outShort_answer _ _ _
      · simp only [Res.ok.injEq] at hcmd; subst hcmd; intro v hv; simp at hv
    have h1 : RegShort (if (!s.known i) = true then s.addClient c i else (s, [])).1.registry ∧
        OutShort (if (!s.known i) = true then s.addClient c i else (s, [])).2 := by
      split
      · exact addClient_short c h hi
      · exact ⟨h, by intro v hv; simp at hv⟩
    obtain ⟨h2, h3⟩ := demandGroups_short c h1.1 hi hx
    exact ⟨h2, outShort_append (outShort_append (outShort_append h1.2 h3) (outShort_answer _ _ _)) hc⟩
  · cases hr
    exact ⟨h, by intro v hv; simp at hv⟩

theorem groupReport_short {c : Brew.Cfg} {s s' : Mm} (h : RegShort s.registry) {hd i : Nat} (hi : i < 2 ^ 24) {x : UAttachDetach}
    (hx : ∀ xs, x.groups = some xs → EntriesOk xs) {out : List MmOut} (hr : s.groupReport c hd i x = .ok (s', out)) :
    RegShort s'.registry ∧ OutShort out := by
  unfold Mm.groupReport at hr
  split at hr
  · cases hr
    exact ⟨h, by intro v hv; simp at hv⟩
  · rename_i xs hxs
    simp only [Res.bind_eq_ok, Res.ok.injEq] at hr
    obtain ⟨sdu, _, e⟩ := hr
    cases e
    have h1 : RegShort (if x.mode = true then s.startOver c i else (s, [])).1.registry ∧
        OutShort (if x.mode = true then s.startOver c i else (s, [])).2 := by
      split
      · exact startOver_short c h hi
      · exact ⟨h, by intro v hv; simp at hv⟩
    obtain ⟨h2, h3⟩ := attachDetach_short c h1.1 hi (hx xs hxs).2
    exact ⟨h2, outShort_append (outShort_append h1.2 h3) (outShort_answer _ _ _)⟩

theorem rx_short {c : Brew.Cfg} {s s' : Mm} (h : RegShort s.registry) {hd i : Nat} (hi : i < 2 ^ 24) {bits : List Bool} {out : List MmOut}
    (hr : s.rx c hd i bits = .ok (s', out)) : RegShort s'.registry ∧ OutShort out := by
  have hsame : ∀ {s' : Mm} {out : List MmOut}, (s', out) = (s, []) → RegShort s'.registry ∧ OutShort out := by
    intro s' out e
    cases e
    exact ⟨h, by intro v hv; simp at hv⟩
  unfold Mm.rx at hr
  split at hr
  · simp only [Res.ok.injEq] at hr; exact hsame hr.symm
  simp only at hr
  split at hr
  · rcases onParsed_ok hr with e | ⟨x, r, _, e⟩
    · exact hsame e
    · simp only [Res.ok.injEq] at e
      have := itsiDetach_short c h i
      rw [e] at this
      exact this
  split at hr
  · rcases onParsed_ok hr with e | ⟨x, r, hp, e⟩
    · exact hsame e
    · exact locationUpdate_short h hi (gives_locationUpdate _ _ _ hp).2 e
  split at hr
  · rcases onParsed_ok hr with e | ⟨x, r, _, e⟩
    · exact hsame e
    · simp only [Mm.status, Res.bind_eq_ok, Res.ok.injEq, Prod.mk.injEq] at e
      obtain ⟨b, _, rfl, rfl⟩ := e
      exact ⟨h, outShort_answer _ _ _⟩
  split at hr
  · rcases onParsed_ok hr with e | ⟨x, r, hp, e⟩
    · exact hsame e
    · exact groupReport_short h hi (gives_attachDetach _ _ _ hp) e
  · simp only [Res.ok.injEq] at hr; exact hsame hr.symm

end Verif.Mm
