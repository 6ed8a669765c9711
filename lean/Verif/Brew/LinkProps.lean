import Verif.Brew.Link
import Verif.Brew.WorkerProps
import Verif.Cmce.CallMembers
/-!
# C60: the server knows the stations of this cell

Histories of entity, worker and connection. The specification is a register, `Reg`: which stations are here, and who is a member
of which group. It is kept once from what mobility management says and once from the bytes the server got.
-/
namespace Verif.Brew
open Codec (Out)

/-! ## Specification -/

/-- Which stations are here, and who is a member of which group. -/
@[ext] structure Reg where
  here : Nat → Prop
  member : Nat → Nat → Prop

/-- How a register changes. -/
inductive RegOp where
  | enter (n : Nat)
  | leave (n : Nat)
  | join (n : Nat) (gs : List Nat)
  | part (n : Nat) (gs : List Nat)

def Reg.none : Reg := ⟨fun _ => False, fun _ _ => False⟩

/-- A station which joins a group is here. One which leaves is in no group. -/
def Reg.apply (r : Reg) : RegOp → Reg
  | .enter n => ⟨fun m => r.here m ∨ m = n, r.member⟩
  | .leave n => ⟨fun m => r.here m ∧ m ≠ n, fun m g => r.member m g ∧ m ≠ n⟩
  | .join n gs => ⟨fun m => r.here m ∨ m = n, fun m g => r.member m g ∨ (m = n ∧ g ∈ gs)⟩
  | .part n gs => ⟨r.here, fun m g => r.member m g ∧ ¬ (m = n ∧ g ∈ gs)⟩

def Reg.applyAll (r : Reg) (ops : List RegOp) : Reg := ops.foldl Reg.apply r

/-- What an update of mobility management says. -/
def updateOp : Cmce.SubUpdate → RegOp
  | .register n => .enter n
  | .deregister n => .leave n
  | .affiliate n gs => .join n gs
  | .deaffiliate n gs => .part n gs

/-- What a message means to the server: types 0, 1, 2, 8 and 9 of the subscriber class are DEREGISTER, REGISTER, REREGISTER,
AFFILIATE and DEAFFILIATE. -/
def BrewMsg.op : BrewMsg → Option RegOp
  | .subscriber 0 n _ _ _ => some (.leave n)
  | .subscriber 1 n _ _ _ => some (.enter n)
  | .subscriber 2 n _ _ _ => some (.enter n)
  | .subscriber 8 n _ _ gs => some (.join n gs)
  | .subscriber 9 n _ _ gs => some (.part n gs)
  | _ => none

/-- What bytes mean to the server. -/
def bytesOp (utf8 : List Nat → Bool) (data : List Nat) : Option RegOp :=
  match parseBrew utf8 data with
  | .ok m => m.op
  | _ => none

/-- What the server knows from the messages it got. -/
def known (utf8 : List Nat → Bool) (heard : List (List Nat)) : Reg := Reg.none.applyAll (heard.filterMap (bytesOp utf8))

/-- The updates of a history. -/
def linkUpdates (h : List LinkEv) : List Cmce.SubUpdate := h.filterMap fun
  | .entity (.update u) => some u
  | _ => none

/-- Who is here, from what mobility management says. -/
def present (h : List LinkEv) : Reg := Reg.none.applyAll ((linkUpdates h).map updateOp)

/-- The part of a register the operator's configuration routes over the network. -/
def Reg.routed (cfg : Cfg) (r : Reg) : Reg :=
  ⟨fun n => r.here n ∧ issiRoutable cfg n = true, fun n g => r.member n g ∧ issiRoutable cfg n = true⟩

/-! ## Histories -/

/-- Numbers are 32 bits wide (`u32`); mobility management names at least one group when a station joins groups
(mm_bs.rs:65-68). -/
def updateOk : Cmce.SubUpdate → Prop
  | .register n => n < 2 ^ 32
  | .deregister n => n < 2 ^ 32
  | .affiliate n gs => n < 2 ^ 32 ∧ gs ≠ [] ∧ ∀ g ∈ gs, g < 2 ^ 32
  | .deaffiliate n gs => n < 2 ^ 32 ∧ ∀ g ∈ gs, g < 2 ^ 32

/-- The types of the numbers in an event. -/
def LinkEv.Ok : LinkEv → Prop
  | .entity (.update u) => updateOk u
  | .exec clock _ => clock.secs < 2 ^ 64 ∧ clock.nanos < 2 ^ 32
  | _ => True

/-- The same table but for the order of iteration of the table and of the sets in it. -/
def Reordered (a b : Assoc Nat (List Nat)) : Prop :=
  ∃ f : Nat → List Nat → List Nat, (∀ k l, (f k l).Perm l) ∧ b.Perm (a.map fun e => (e.1, f e.1 e.2))

/-- The state after a history. -/
inductive LinkRun (utf8 : List Nat → Bool) (cfg : Cfg) (latency : Nat) : List LinkEv → Link → Prop where
  | init : LinkRun utf8 cfg latency [] (.init cfg latency)
  | step {h : List LinkEv} {s s' : Link} {e : LinkEv} :
      LinkRun utf8 cfg latency h s → e.Ok → s.step utf8 e = some s' → LinkRun utf8 cfg latency (h ++ [e]) s'
  | reorder {h : List LinkEv} {s : Link} {a b : Assoc Nat (List Nat)} :
      LinkRun utf8 cfg latency h s → Reordered s.ent.subs a → Reordered s.worker.groups b →
      LinkRun utf8 cfg latency h { s with ent := { s.ent with subs := a }, worker := { s.worker with groups := b } }

/-! ## Registers -/

def Reg.Le (a b : Reg) : Prop := (∀ n, a.here n → b.here n) ∧ ∀ n g, a.member n g → b.member n g

theorem Reg.Le.rfl {a : Reg} : a.Le a := ⟨fun _ h => h, fun _ _ h => h⟩
theorem Reg.Le.trans {a b c : Reg} (h1 : a.Le b) (h2 : b.Le c) : a.Le c :=
  ⟨fun n h => h2.1 n (h1.1 n h), fun n g h => h2.2 n g (h1.2 n g h)⟩
theorem Reg.Le.antisymm {a b : Reg} (h1 : a.Le b) (h2 : b.Le a) : a = b := by
  apply Reg.ext
  · funext n; exact propext ⟨h1.1 n, h2.1 n⟩
  · funext n g; exact propext ⟨h1.2 n g, h2.2 n g⟩
theorem Reg.none_le (a : Reg) : Reg.none.Le a := ⟨fun _ h => h.elim, fun _ _ h => h.elim⟩

theorem Reg.apply_mono {a b : Reg} (h : a.Le b) (op : RegOp) : (a.apply op).Le (b.apply op) := by
  cases op with
  | enter n => exact ⟨fun m hm => hm.imp (h.1 m) id, h.2⟩
  | leave n => exact ⟨fun m hm => ⟨h.1 m hm.1, hm.2⟩, fun m g hm => ⟨h.2 m g hm.1, hm.2⟩⟩
  | join n gs => exact ⟨fun m hm => hm.imp (h.1 m) id, fun m g hm => hm.imp (h.2 m g) id⟩
  | part n gs => exact ⟨h.1, fun m g hm => ⟨h.2 m g hm.1, hm.2⟩⟩

theorem Reg.applyAll_mono {a b : Reg} (h : a.Le b) (ops : List RegOp) : (a.applyAll ops).Le (b.applyAll ops) := by
  induction ops generalizing a b with
  | nil => exact h
  | cons op ops ih => exact ih (Reg.apply_mono h op)

theorem Reg.applyAll_append (a : Reg) (x y : List RegOp) : a.applyAll (x ++ y) = (a.applyAll x).applyAll y := List.foldl_append

/-! ## The entity's table -/

/-- A table of the groups of each station, as a register. -/
def tableReg (m : Assoc Nat (List Nat)) : Reg :=
  ⟨fun n => (m.get n).isSome = true, fun n g => ∃ gs, m.get n = some gs ∧ g ∈ gs⟩

/-- A well-formed table of 32 bit numbers. -/
structure TableOk (m : Assoc Nat (List Nat)) : Prop where
  ok : m.Ok
  nodup : ∀ n gs, m.get n = some gs → gs.Nodup
  u32 : ∀ n gs, m.get n = some gs → n < 2 ^ 32 ∧ ∀ g ∈ gs, g < 2 ^ 32

theorem tableReg_insert (m : Assoc Nat (List Nat)) (n : Nat) (gs : List Nat) :
    tableReg (m.insert n gs) =
      ⟨fun k => (tableReg m).here k ∨ k = n, fun k g => (k ≠ n ∧ (tableReg m).member k g) ∨ (k = n ∧ g ∈ gs)⟩ := by
  apply Reg.ext
  · funext k
    apply propext
    simp only [tableReg, Assoc.get_insert]
    by_cases hk : n = k
    · simp [hk]
    · have : ¬ k = n := fun h => hk h.symm
      simp [hk, this]
  · funext k g
    apply propext
    simp only [tableReg, Assoc.get_insert]
    by_cases hk : n = k
    · simp [hk]
    · have : ¬ k = n := fun h => hk h.symm
      simp [hk, this]

theorem tableReg_erase (m : Assoc Nat (List Nat)) (n : Nat) :
    tableReg (m.erase n) = (tableReg m).apply (.leave n) := by
  apply Reg.ext
  · funext k
    apply propext
    simp only [tableReg, Reg.apply, Assoc.get_erase]
    by_cases hk : n = k
    · simp [hk]
    · have : ¬ k = n := fun h => hk h.symm
      simp [hk, this]
  · funext k g
    apply propext
    simp only [tableReg, Reg.apply, Assoc.get_erase]
    by_cases hk : n = k
    · simp [hk]
    · have : ¬ k = n := fun h => hk h.symm
      simp [hk, this]

theorem tableReg_orEmpty (m : Assoc Nat (List Nat)) (n : Nat) : tableReg (orEmpty m n) = (tableReg m).apply (.enter n) := by
  unfold orEmpty
  cases h : m.get n with
  | some v =>
    apply Reg.ext
    · funext k
      apply propext
      simp only [tableReg, Reg.apply]
      constructor
      · exact .inl
      · rintro (h1 | rfl)
        · exact h1
        · simp [h]
    · rfl
  | none =>
    simp only
    rw [tableReg_insert]
    apply Reg.ext
    · rfl
    · funext k g
      apply propext
      simp only [tableReg, Reg.apply, List.not_mem_nil, and_false, or_false]
      constructor
      · exact fun h1 => h1.2
      · rintro ⟨gs, h1, h2⟩
        refine ⟨?_, gs, h1, h2⟩
        rintro rfl
        rw [h] at h1; cases h1

theorem TableOk.insert {m : Assoc Nat (List Nat)} (h : TableOk m) {n : Nat} {gs : List Nat} (hn : n < 2 ^ 32) (hd : gs.Nodup)
    (hg : ∀ g ∈ gs, g < 2 ^ 32) : TableOk (m.insert n gs) := by
  refine ⟨Assoc.ok_insert h.ok _ _, ?_, ?_⟩
  · intro k l hk
    rw [Assoc.get_insert] at hk
    split at hk
    · cases hk; exact hd
    · exact h.nodup k l hk
  · intro k l hk
    rw [Assoc.get_insert] at hk
    split at hk
    · rename_i e; cases hk; subst e; exact ⟨hn, hg⟩
    · exact h.u32 k l hk

theorem TableOk.erase {m : Assoc Nat (List Nat)} (h : TableOk m) (n : Nat) : TableOk (m.erase n) := by
  refine ⟨Assoc.ok_erase h.ok _, ?_, ?_⟩
  · intro k l hk
    rw [Assoc.get_erase] at hk
    split at hk
    · cases hk
    · exact h.nodup k l hk
  · intro k l hk
    rw [Assoc.get_erase] at hk
    split at hk
    · cases hk
    · exact h.u32 k l hk

theorem TableOk.orEmpty {m : Assoc Nat (List Nat)} (h : TableOk m) {n : Nat} (hn : n < 2 ^ 32) : TableOk (orEmpty m n) := by
  unfold Brew.orEmpty
  split
  · exact h
  · exact h.insert hn List.nodup_nil (by simp)

theorem TableOk.getD {m : Assoc Nat (List Nat)} (h : TableOk m) (n : Nat) :
    ((m.get n).getD []).Nodup ∧ ∀ g ∈ (m.get n).getD [], g < 2 ^ 32 := by
  cases hg : m.get n with
  | none => simp
  | some gs => exact ⟨h.nodup n gs hg, (h.u32 n gs hg).2⟩

theorem get_map_values {f : Nat → List Nat → List Nat} (m : Assoc Nat (List Nat)) (n : Nat) :
    Assoc.get (m.map fun e => (e.1, f e.1 e.2)) n = (m.get n).map (f n) := by
  induction m with
  | nil => rfl
  | cons e r ih =>
    obtain ⟨a, v⟩ := e
    rw [List.map_cons, Assoc.get_cons, Assoc.get_cons]
    split
    · rename_i h; subst h; rfl
    · exact ih

theorem Reordered.get {a b : Assoc Nat (List Nat)} (hr : Reordered a b) (ha : a.Ok) :
    b.Ok ∧ (∀ n gs, b.get n = some gs → ∃ gs', a.get n = some gs' ∧ gs.Perm gs') ∧
    ∀ n gs', a.get n = some gs' → ∃ gs, b.get n = some gs ∧ gs.Perm gs' := by
  obtain ⟨f, hf, hp⟩ := hr
  have hok : Assoc.Ok (a.map fun e => (e.1, f e.1 e.2)) := by
    simp only [Assoc.Ok, List.map_map] at ha ⊢
    exact ha
  have hget : ∀ n, b.get n = (a.get n).map (f n) := by
    intro n
    rw [assoc_get_perm hp hok, get_map_values]
  refine ⟨(hp.map Prod.fst).nodup_iff.2 hok, ?_, ?_⟩
  · intro n gs h
    rw [hget] at h
    cases hc : a.get n with
    | none => rw [hc] at h; cases h
    | some v => rw [hc] at h; cases h; exact ⟨v, rfl, hf n v⟩
  · intro n gs' h
    exact ⟨f n gs', by rw [hget, h]; rfl, hf n gs'⟩

theorem Reordered.reg {a b : Assoc Nat (List Nat)} (hr : Reordered a b) (ha : a.Ok) : tableReg b = tableReg a := by
  obtain ⟨-, h1, h2⟩ := hr.get ha
  apply Reg.ext
  · funext n
    apply propext
    simp only [tableReg, Option.isSome_iff_exists]
    constructor
    · rintro ⟨gs, h⟩; obtain ⟨gs', h, -⟩ := h1 n gs h; exact ⟨gs', h⟩
    · rintro ⟨gs, h⟩; obtain ⟨gs', h, -⟩ := h2 n gs h; exact ⟨gs', h⟩
  · funext n g
    apply propext
    simp only [tableReg]
    constructor
    · rintro ⟨gs, h, hg⟩; obtain ⟨gs', h, hp⟩ := h1 n gs h; exact ⟨gs', h, hp.mem_iff.1 hg⟩
    · rintro ⟨gs, h, hg⟩; obtain ⟨gs', h, hp⟩ := h2 n gs h; exact ⟨gs', h, hp.mem_iff.2 hg⟩

theorem Reordered.ok {a b : Assoc Nat (List Nat)} (hr : Reordered a b) (ha : TableOk a) : TableOk b := by
  obtain ⟨h0, h1, h2⟩ := hr.get ha.ok
  refine ⟨h0, ?_, ?_⟩
  · intro n gs h
    obtain ⟨gs', h, hp⟩ := h1 n gs h
    exact hp.nodup_iff.2 (ha.nodup n gs' h)
  · intro n gs h
    obtain ⟨gs', h, hp⟩ := h1 n gs h
    exact ⟨(ha.u32 n gs' h).1, fun g hg => (ha.u32 n gs' h).2 g (hp.mem_iff.1 hg)⟩

/-! ## What the entity tells the worker -/

/-- What a command means. -/
def BrewCmd.op : BrewCmd → Option RegOp
  | .register n => some (.enter n)
  | .deregister n => some (.leave n)
  | .affiliate n gs => some (.join n gs)
  | .deaffiliate n gs => some (.part n gs)
  | _ => none

/-- The numbers in a command about stations; the entity does not stop the worker. -/
def BrewCmd.U32 : BrewCmd → Prop
  | .register n => n < 2 ^ 32
  | .deregister n => n < 2 ^ 32
  | .affiliate n gs => n < 2 ^ 32 ∧ ∀ g ∈ gs, g < 2 ^ 32
  | .deaffiliate n gs => n < 2 ^ 32 ∧ ∀ g ∈ gs, g < 2 ^ 32
  | .disconnect => False
  | _ => True

/-- An update changes the table as it says, and the worker is told the change, as far as it is routed. -/
theorem update_spec (s : Ent) (hs : TableOk s.subs) (u : Cmce.SubUpdate) (hu : updateOk u) :
    TableOk (s.update u).1.subs ∧ tableReg (s.update u).1.subs = (tableReg s.subs).apply (updateOp u) ∧
    (s.update u).1.cfg = s.cfg ∧ (∀ c ∈ cmdsOf (s.update u).2, c.U32) ∧
    ((tableReg s.subs).routed s.cfg).applyAll ((cmdsOf (s.update u).2).filterMap BrewCmd.op) =
      ((tableReg s.subs).apply (updateOp u)).routed s.cfg := by
  cases u with
  | register n =>
    simp only [updateOk] at hu
    refine ⟨hs.orEmpty hu, tableReg_orEmpty _ _, rfl, ?_, ?_⟩
    · simp only [Ent.update]
      split
      · simp [cmdsOf, BrewCmd.U32, hu]
      · simp [cmdsOf]
    · simp only [Ent.update]
      split
      · rename_i hr
        apply Reg.ext
        · funext m; apply propext
          simp only [cmdsOf, Reg.applyAll, Reg.apply, Reg.routed, updateOp, BrewCmd.op, List.filterMap_cons, List.filterMap_nil,
            List.foldl_cons, List.foldl_nil]
          constructor
          · rintro (⟨h1, h2⟩ | rfl)
            · exact ⟨.inl h1, h2⟩
            · exact ⟨.inr rfl, hr⟩
          · rintro ⟨h1 | rfl, h2⟩
            · exact .inl ⟨h1, h2⟩
            · exact .inr rfl
        · rfl
      · rename_i hr
        apply Reg.ext
        · funext m; apply propext
          simp only [cmdsOf, Reg.applyAll, Reg.apply, Reg.routed, updateOp, List.filterMap_nil, List.foldl_nil]
          constructor
          · rintro ⟨h1, h2⟩; exact ⟨.inl h1, h2⟩
          · rintro ⟨h1 | rfl, h2⟩
            · exact ⟨h1, h2⟩
            · exact absurd h2 hr
        · rfl
  | deregister n =>
    simp only [updateOk] at hu
    refine ⟨hs.erase n, tableReg_erase _ _, rfl, ?_, ?_⟩
    · simp only [Ent.update]
      split
      · intro c hc
        split at hc <;> simp [cmdsOf] at hc
        · subst hc; exact hu
        · rcases hc with rfl | rfl
          · exact ⟨hu, (hs.getD n).2⟩
          · exact hu
      · simp [cmdsOf]
    · simp only [Ent.update]
      split
      · rename_i hr
        have key : ∀ l, ((tableReg s.subs).routed s.cfg).applyAll (l ++ [RegOp.leave n]) =
            (((tableReg s.subs).routed s.cfg).applyAll l).apply (.leave n) := by
          intro l; rw [Reg.applyAll_append]; rfl
        split
        · apply Reg.ext
          · funext m; apply propext
            simp only [cmdsOf, Reg.applyAll, Reg.apply, Reg.routed, updateOp, BrewCmd.op, List.filterMap_cons, List.filterMap_nil,
              List.foldl_cons, List.foldl_nil, List.nil_append]
            exact ⟨fun h => ⟨⟨h.1.1, h.2⟩, h.1.2⟩, fun h => ⟨⟨h.1.1, h.2⟩, h.1.2⟩⟩
          · funext m g; apply propext
            simp only [cmdsOf, Reg.applyAll, Reg.apply, Reg.routed, updateOp, BrewCmd.op, List.filterMap_cons, List.filterMap_nil,
              List.foldl_cons, List.foldl_nil, List.nil_append]
            exact ⟨fun h => ⟨⟨h.1.1, h.2⟩, h.1.2⟩, fun h => ⟨⟨h.1.1, h.2⟩, h.1.2⟩⟩
        · apply Reg.ext
          · funext m; apply propext
            simp only [cmdsOf, Reg.applyAll, Reg.apply, Reg.routed, updateOp, BrewCmd.op, List.filterMap_cons, List.filterMap_nil,
              List.foldl_cons, List.foldl_nil, List.cons_append, List.nil_append]
            exact ⟨fun h => ⟨⟨h.1.1, h.2⟩, h.1.2⟩, fun h => ⟨⟨h.1.1, h.2⟩, h.1.2⟩⟩
          · funext m g; apply propext
            simp only [cmdsOf, Reg.applyAll, Reg.apply, Reg.routed, updateOp, BrewCmd.op, List.filterMap_cons, List.filterMap_nil,
              List.foldl_cons, List.foldl_nil, List.cons_append, List.nil_append]
            exact ⟨fun h => ⟨⟨h.1.1.1, h.2⟩, h.1.1.2⟩, fun h => ⟨⟨⟨h.1.1, h.2⟩, fun h2 => h.1.2 h2.1⟩, h.1.2⟩⟩
      · rename_i hr
        apply Reg.ext
        · funext m; apply propext
          simp only [cmdsOf, Reg.applyAll, Reg.apply, Reg.routed, updateOp, List.filterMap_nil, List.foldl_nil]
          exact ⟨fun h => ⟨⟨h.1, fun e => hr (e ▸ h.2)⟩, h.2⟩, fun h => ⟨h.1.1, h.2⟩⟩
        · funext m g; apply propext
          simp only [cmdsOf, Reg.applyAll, Reg.apply, Reg.routed, updateOp, List.filterMap_nil, List.foldl_nil]
          exact ⟨fun h => ⟨⟨h.1, fun e => hr (e ▸ h.2)⟩, h.2⟩, fun h => ⟨h.1.1, h.2⟩⟩
  | affiliate n gs =>
    obtain ⟨hn, hne, hgs⟩ := hu
    obtain ⟨hd, hl⟩ := hs.getD n
    obtain ⟨a1, a2, a3, a4⟩ := Cmce.addGroups_spec gs _ hd
    have hmem : ∀ g, g ∈ (s.subs.get n).getD [] ↔ (tableReg s.subs).member n g := by
      intro g
      simp only [tableReg]
      cases h : s.subs.get n <;> simp
    have hnew : (Cmce.addGroups ((s.subs.get n).getD []) gs).2 = [] → (tableReg s.subs).here n := by
      intro h
      obtain ⟨g, l, rfl⟩ : ∃ g l, gs = g :: l := by cases gs with
        | nil => exact absurd rfl hne
        | cons g l => exact ⟨g, l, rfl⟩
      by_cases hg : g ∈ (s.subs.get n).getD []
      · rw [hmem] at hg
        obtain ⟨l', h1, -⟩ := hg
        simp [tableReg, h1]
      · have := (a4 g).2 ⟨by simp, hg⟩
        rw [h] at this; simp at this
    refine ⟨?_, ?_, rfl, ?_, ?_⟩
    · refine hs.insert hn a1 ?_
      intro g hg
      rcases (a3 g).1 hg with h | h
      · exact hl g h
      · exact hgs g h
    · simp only [Ent.update]
      rw [tableReg_insert]
      apply Reg.ext
      · rfl
      · funext m g; apply propext
        simp only [Reg.apply, updateOp, a3, hmem]
        constructor
        · rintro (⟨-, h⟩ | ⟨rfl, h | h⟩)
          · exact .inl h
          · exact .inl h
          · exact .inr ⟨rfl, h⟩
        · rintro (h | ⟨rfl, h⟩)
          · by_cases hm : m = n
            · subst hm; exact .inr ⟨rfl, .inl h⟩
            · exact .inl ⟨hm, h⟩
          · exact .inr ⟨rfl, .inr h⟩
    · simp only [Ent.update]
      split
      · intro c hc
        simp [cmdsOf] at hc
        subst hc
        exact ⟨hn, fun g hg => hgs g ((a4 g).1 hg).1⟩
      · simp [cmdsOf]
    · simp only [Ent.update]
      split
      · rename_i hr
        simp only [Bool.and_eq_true] at hr
        apply Reg.ext
        · funext m; apply propext
          simp only [cmdsOf, Reg.applyAll, Reg.apply, Reg.routed, updateOp, BrewCmd.op, List.filterMap_cons, List.filterMap_nil,
            List.foldl_cons, List.foldl_nil]
          constructor
          · rintro (⟨h1, h2⟩ | rfl)
            · exact ⟨.inl h1, h2⟩
            · exact ⟨.inr rfl, hr.2⟩
          · rintro ⟨h1 | rfl, h2⟩
            · exact .inl ⟨h1, h2⟩
            · exact .inr rfl
        · funext m g; apply propext
          simp only [cmdsOf, Reg.applyAll, Reg.apply, Reg.routed, updateOp, BrewCmd.op, List.filterMap_cons, List.filterMap_nil,
            List.foldl_cons, List.foldl_nil, a4, hmem]
          constructor
          · rintro (⟨h1, h2⟩ | ⟨rfl, h, -⟩)
            · exact ⟨.inl h1, h2⟩
            · exact ⟨.inr ⟨rfl, h⟩, hr.2⟩
          · rintro ⟨h1 | ⟨rfl, h1⟩, h2⟩
            · exact .inl ⟨h1, h2⟩
            · by_cases hm : (tableReg s.subs).member m g
              · exact .inl ⟨hm, h2⟩
              · exact .inr ⟨rfl, h1, hm⟩
      · rename_i hr
        have hcase : ∀ m, m = n → issiRoutable s.cfg m = true → (Cmce.addGroups ((s.subs.get n).getD []) gs).2 = [] := by
          rintro m rfl h
          simpa [h] using hr
        apply Reg.ext
        · funext m; apply propext
          simp only [cmdsOf, Reg.applyAll, Reg.apply, Reg.routed, updateOp, List.filterMap_nil, List.foldl_nil]
          constructor
          · rintro ⟨h1, h2⟩; exact ⟨.inl h1, h2⟩
          · rintro ⟨h1 | hm, h2⟩
            · exact ⟨h1, h2⟩
            · exact ⟨hm ▸ hnew (hcase m hm h2), h2⟩
        · funext m g; apply propext
          simp only [cmdsOf, Reg.applyAll, Reg.apply, Reg.routed, updateOp, List.filterMap_nil, List.foldl_nil]
          constructor
          · rintro ⟨h1, h2⟩; exact ⟨.inl h1, h2⟩
          · rintro ⟨h1 | ⟨hm, h1⟩, h2⟩
            · exact ⟨h1, h2⟩
            · refine ⟨?_, h2⟩
              have he := hcase m hm h2
              subst hm
              by_cases hq : g ∈ (s.subs.get m).getD []
              · exact (hmem g).1 hq
              · have := (a4 g).2 ⟨h1, hq⟩
                rw [he] at this; simp at this
  | deaffiliate n gs =>
    obtain ⟨hn, hgs⟩ := hu
    cases hget : s.subs.get n with
    | none =>
      have hno : ∀ m g, m = n → ¬ (tableReg s.subs).member m g := by
        rintro m g rfl ⟨l, h, -⟩
        rw [hget] at h; cases h
      have he : s.update (.deaffiliate n gs) = (s, []) := by simp only [Ent.update, hget]
      have hsame : (tableReg s.subs).apply (updateOp (.deaffiliate n gs)) = tableReg s.subs := by
        apply Reg.ext
        · rfl
        · funext m g; apply propext
          exact ⟨fun h => h.1, fun h => ⟨h, fun h2 => hno m g h2.1 h⟩⟩
      rw [he, hsame]
      exact ⟨hs, rfl, rfl, by simp [cmdsOf], rfl⟩
    | some set =>
      have hd := hs.nodup n set hget
      obtain ⟨-, a2, a3, a4⟩ := Cmce.removeGroups_spec gs set hd
      have a1 := (Cmce.removeGroups_spec gs set hd).1
      have hmem : ∀ g, g ∈ set ↔ (tableReg s.subs).member n g := by
        intro g
        simp only [tableReg, hget, Option.some.injEq]
        exact ⟨fun h => ⟨set, rfl, h⟩, fun ⟨l, e, h⟩ => e ▸ h⟩
      have hhere : (tableReg s.subs).here n := by simp [tableReg, hget]
      refine ⟨?_, ?_, ?_, ?_, ?_⟩
      · simp only [Ent.update, hget]
        exact hs.insert hn a1 fun g hg => (hs.u32 n set hget).2 g ((a3 g).1 hg).1
      · simp only [Ent.update, hget]
        rw [tableReg_insert]
        apply Reg.ext
        · funext m; apply propext
          simp only [Reg.apply, updateOp]
          constructor
          · rintro (h | rfl)
            · exact h
            · exact hhere
          · exact .inl
        · funext m g; apply propext
          simp only [Reg.apply, updateOp, a3, hmem]
          constructor
          · rintro (⟨h1, h2⟩ | ⟨rfl, h1, h2⟩)
            · exact ⟨h2, fun h => h1 h.1⟩
            · exact ⟨h1, fun h => h2 h.2⟩
          · rintro ⟨h1, h2⟩
            by_cases hm : m = n
            · subst hm; exact .inr ⟨rfl, h1, fun h => h2 ⟨rfl, h⟩⟩
            · exact .inl ⟨hm, h1⟩
      · simp only [Ent.update, hget]
      · simp only [Ent.update, hget]
        split
        · intro c hc
          simp [cmdsOf] at hc
          subst hc
          exact ⟨hn, fun g hg => hgs g ((a4 g).1 hg).1⟩
        · simp [cmdsOf]
      · simp only [Ent.update, hget]
        split
        · rename_i hr
          simp only [Bool.and_eq_true] at hr
          apply Reg.ext
          · rfl
          · funext m g; apply propext
            simp only [cmdsOf, Reg.applyAll, Reg.apply, Reg.routed, updateOp, BrewCmd.op, List.filterMap_cons, List.filterMap_nil,
              List.foldl_cons, List.foldl_nil, a4, hmem]
            constructor
            · rintro ⟨⟨h1, h2⟩, h3⟩
              refine ⟨⟨h1, ?_⟩, h2⟩
              rintro ⟨rfl, h⟩
              exact h3 ⟨rfl, h, h1⟩
            · rintro ⟨⟨h1, h2⟩, h3⟩
              exact ⟨⟨h1, h3⟩, fun h => h2 ⟨h.1, h.2.1⟩⟩
        · rename_i hr
          apply Reg.ext
          · rfl
          · funext m g; apply propext
            simp only [cmdsOf, Reg.applyAll, Reg.apply, Reg.routed, updateOp, List.filterMap_nil, List.foldl_nil]
            constructor
            · rintro ⟨h1, h2⟩
              refine ⟨⟨h1, ?_⟩, h2⟩
              rintro ⟨rfl, h⟩
              have he : (Cmce.removeGroups set gs).2 = [] := by simpa [h2] using hr
              have := (a4 g).2 ⟨h, (hmem g).2 h1⟩
              rw [he] at this; simp at this
            · rintro ⟨⟨h1, -⟩, h2⟩; exact ⟨h1, h2⟩

/-- Nothing else the entity does changes the table or tells the worker about stations. -/
theorem other_step (s : Ent) (e : EntEv) (h1 : ∀ u, e ≠ .update u) (h2 : ∀ b r n j, e ≠ .event b r n j) :
    (s.step e).1.subs = s.subs ∧ (s.step e).1.cfg = s.cfg ∧ ∀ c ∈ cmdsOf (s.step e).2, c.op = none ∧ c.U32 := by
  cases e with
  | clock t => exact ⟨rfl, rfl, by simp [Ent.step, cmdsOf]⟩
  | event b r n j => exact absurd rfl (h2 b r n j)
  | playout j =>
    have key : ∀ t (l : List (Nat × NetCall)) (jit : Assoc Nat Jitter), ∀ c ∈ cmdsOf (playLoop t j jit l).2, c.op = none ∧ c.U32 := by
      intro t l
      induction l with
      | nil => intro jit; simp [playLoop, cmdsOf]
      | cons x l ih =>
        intro jit
        obtain ⟨u, c⟩ := x
        unfold playLoop
        split
        · exact ih _
        · split
          · exact ih _
          · split
            · exact ih _
            · simp only
              split
              · intro c hc
                simp only [cmdsOf, List.cons_append, List.nil_append, List.filterMap_cons] at hc
                exact ih _ c hc
              · exact ih _
    simp only [Ent.step, Ent.playout]
    split
    · exact ⟨rfl, rfl, by simp [cmdsOf]⟩
    · exact ⟨rfl, rfl, key _ _ _⟩
  | expire now => exact ⟨rfl, rfl, by simp [Ent.step, cmdsOf]⟩
  | granted id source gssi ts fresh =>
    simp only [Ent.step, Ent.localStart]
    split
    · exact ⟨rfl, rfl, by simp [cmdsOf]⟩
    · split
      · exact ⟨rfl, rfl, by simp [cmdsOf]⟩
      · split <;> exact ⟨rfl, rfl, by simp [cmdsOf, BrewCmd.op, BrewCmd.U32]⟩
  | released id ts =>
    simp only [Ent.step, Ent.localStop]
    split <;> exact ⟨rfl, rfl, by simp [cmdsOf, BrewCmd.op, BrewCmd.U32]⟩
  | ended id ts => exact ⟨rfl, rfl, by simp [Ent.step, cmdsOf]⟩
  | netEnd u =>
    simp only [Ent.step, Ent.dropCall]
    split
    · exact ⟨rfl, rfl, by simp [cmdsOf]⟩
    · split <;> exact ⟨rfl, rfl, by simp [cmdsOf]⟩
  | netReady u id ts usage =>
    simp only [Ent.step, Ent.ready]
    split <;> exact ⟨rfl, rfl, by simp [cmdsOf]⟩
  | update u => exact absurd rfl (h1 u)
  | ulVoice ts bits =>
    simp only [Ent.step, Ent.ulVoice]
    refine ⟨trivial, trivial, ?_⟩
    split
    · simp [cmdsOf]
    · split <;> simp [cmdsOf, BrewCmd.op, BrewCmd.U32]
  | sds source dest data fresh =>
    simp only [Ent.step, Ent.sdsOut]
    refine ⟨trivial, trivial, ?_⟩
    split <;> simp [cmdsOf, BrewCmd.op, BrewCmd.U32]

theorem cmdsOf_callEnds (l : List (Nat × NetCall)) : cmdsOf (l.map fun e => EntOut.callEnd e.1) = [] := by
  induction l with
  | nil => rfl
  | cons x l ih => simpa [cmdsOf] using ih

/-- Of the events of the worker, only that of a new connection makes the entity tell it about stations. -/
theorem other_event (s : Ent) (r : Nat → Bool) (n j : Nat) (b : BrewEvent) (hb : b ≠ .connected) :
    (s.event r n j b).1.subs = s.subs ∧ (s.event r n j b).1.cfg = s.cfg ∧
    ∀ c ∈ cmdsOf (s.event r n j b).2, c.op = none ∧ c.U32 := by
  cases b with
  | connected => exact absurd rfl hb
  | disconnected =>
    simp only [Ent.event, Ent.linkDown]
    exact ⟨trivial, trivial, by rw [cmdsOf_callEnds]; simp⟩
  | groupCallStart u source gssi p service =>
    simp only [Ent.event, Ent.callStart]
    split
    · split <;> exact ⟨rfl, rfl, by simp [cmdsOf]⟩
    · exact ⟨rfl, rfl, by simp [cmdsOf]⟩
  | groupCallEnd u cause =>
    simp only [Ent.event, Ent.callEnd]
    split <;> exact ⟨rfl, rfl, by simp [cmdsOf]⟩
  | voice u bits data =>
    simp only [Ent.event, Ent.voice]
    split
    · exact ⟨rfl, rfl, by simp [cmdsOf]⟩
    · split
      · exact ⟨rfl, rfl, by simp [cmdsOf]⟩
      · split <;> exact ⟨rfl, rfl, by simp [cmdsOf]⟩
  | sds u source dest data bits =>
    simp only [Ent.event, Ent.sdsIn]
    refine ⟨trivial, trivial, ?_⟩
    split <;> simp [cmdsOf, BrewCmd.op, BrewCmd.U32]
  | _ => exact ⟨rfl, rfl, by simp [Ent.event, cmdsOf]⟩

theorem cmdsOf_append (a b : List EntOut) : cmdsOf (a ++ b) = cmdsOf a ++ cmdsOf b := List.filterMap_append

/-- After a new connection the worker is told everything that is routed. -/
theorem resync_spec (s : Ent) (hs : TableOk s.subs) :
    (∀ c ∈ cmdsOf s.resync, c.U32) ∧
    ∀ r : Reg, r.Le ((tableReg s.subs).routed s.cfg) →
      r.applyAll ((cmdsOf s.resync).filterMap BrewCmd.op) = (tableReg s.subs).routed s.cfg := by
  have key : ∀ m : Assoc Nat (List Nat), (∀ e ∈ m, s.subs.get e.1 = some e.2) →
      (∀ c ∈ cmdsOf ({ s with subs := m } : Ent).resync, c.U32) ∧
      ∀ r : Reg, r.Le ((tableReg s.subs).routed s.cfg) →
        (r.applyAll ((cmdsOf ({ s with subs := m } : Ent).resync).filterMap BrewCmd.op)).Le ((tableReg s.subs).routed s.cfg) ∧
        r.Le (r.applyAll ((cmdsOf ({ s with subs := m } : Ent).resync).filterMap BrewCmd.op)) ∧
        (∀ e ∈ m, issiRoutable s.cfg e.1 = true →
          (r.applyAll ((cmdsOf ({ s with subs := m } : Ent).resync).filterMap BrewCmd.op)).here e.1 ∧
          ∀ g ∈ e.2, (r.applyAll ((cmdsOf ({ s with subs := m } : Ent).resync).filterMap BrewCmd.op)).member e.1 g) := by
    intro m
    induction m with
    | nil => intro _; exact ⟨by simp [Ent.resync, cmdsOf], fun r hr => ⟨hr, Reg.Le.rfl, by simp⟩⟩
    | cons e m ih =>
      intro hm
      obtain ⟨n, gs⟩ := e
      have hg : s.subs.get n = some gs := hm (n, gs) (by simp)
      obtain ⟨ihu, ih⟩ := ih fun x hx => hm x (by simp [hx])
      have heq : ({ s with subs := (n, gs) :: m } : Ent).resync =
          (if issiRoutable s.cfg n then .cmd (.register n) :: (if gs.isEmpty then [] else [.cmd (.affiliate n gs)]) else []) ++
          ({ s with subs := m } : Ent).resync := rfl
      by_cases hr : issiRoutable s.cfg n = true
      · rw [if_pos hr] at heq
        have hu := hs.u32 n gs hg
        -- the station itself
        have hone : ∀ r : Reg, r.Le ((tableReg s.subs).routed s.cfg) →
            let r' := r.applyAll ((cmdsOf (.cmd (.register n) :: (if gs.isEmpty then [] else [.cmd (.affiliate n gs)]))).filterMap BrewCmd.op)
            r'.Le ((tableReg s.subs).routed s.cfg) ∧ r.Le r' ∧ r'.here n ∧ ∀ g ∈ gs, r'.member n g := by
          intro r hle
          have hn : ((tableReg s.subs).routed s.cfg).here n := ⟨by simp [tableReg, hg], hr⟩
          cases gs with
          | nil =>
            simp only [cmdsOf, List.isEmpty_nil, if_true, List.filterMap_cons, List.filterMap_nil, BrewCmd.op, Reg.applyAll,
              List.foldl_cons, List.foldl_nil]
            refine ⟨⟨?_, hle.2⟩, ⟨fun m h => .inl h, fun m g h => h⟩, .inr rfl, by simp⟩
            rintro m (h | rfl)
            · exact hle.1 m h
            · exact hn
          | cons g gs =>
            simp only [cmdsOf, List.isEmpty_cons, Bool.false_eq_true, if_false, List.filterMap_cons, List.filterMap_nil, BrewCmd.op,
              Reg.applyAll, List.foldl_cons, List.foldl_nil]
            refine ⟨⟨?_, ?_⟩, ⟨fun m h => .inl (.inl h), fun m g h => .inl h⟩, .inr rfl, fun g hg => .inr ⟨rfl, hg⟩⟩
            · rintro m ((h | rfl) | rfl)
              · exact hle.1 m h
              · exact hn
              · exact hn
            · rintro m x (h | ⟨rfl, h⟩)
              · exact hle.2 m x h
              · exact ⟨⟨g :: gs, hg, h⟩, hr⟩
        refine ⟨?_, ?_⟩
        · intro c hc
          rw [heq, cmdsOf_append, List.mem_append] at hc
          rcases hc with hc | hc
          · split at hc <;> simp [cmdsOf] at hc
            · subst hc; exact hu.1
            · rcases hc with rfl | rfl
              · exact hu.1
              · exact hu
          · exact ihu c hc
        · intro r hle
          obtain ⟨h1, h2, h3, h4⟩ := hone r hle
          obtain ⟨i1, i2, i3⟩ := ih _ h1
          rw [heq, cmdsOf_append, List.filterMap_append, Reg.applyAll_append]
          refine ⟨i1, h2.trans i2, ?_⟩
          intro x hx hxr
          rcases List.mem_cons.1 hx with rfl | hx
          · exact ⟨i2.1 _ h3, fun g hg => i2.2 _ _ (h4 g hg)⟩
          · exact i3 x hx hxr
      · rw [if_neg hr] at heq
        rw [heq, List.nil_append]
        refine ⟨ihu, ?_⟩
        intro r hle
        obtain ⟨i1, i2, i3⟩ := ih r hle
        refine ⟨i1, i2, ?_⟩
        intro x hx hxr
        rcases List.mem_cons.1 hx with rfl | hx
        · exact absurd hxr hr
        · exact i3 x hx hxr
  obtain ⟨k1, k2⟩ := key s.subs fun e he => Assoc.get_of_mem hs.ok he
  refine ⟨k1, ?_⟩
  intro r hle
  obtain ⟨h1, h2, h3⟩ := k2 r hle
  apply Reg.Le.antisymm h1
  constructor
  · rintro n ⟨h, hr⟩
    obtain ⟨gs, hg⟩ := Option.isSome_iff_exists.1 h
    exact (h3 (n, gs) (Assoc.mem_of_get hg) hr).1
  · rintro n g ⟨⟨gs, hg, hm⟩, hr⟩
    exact (h3 (n, gs) (Assoc.mem_of_get hg) hr).2 g hm

/-! ## What the worker tells the server -/

theorem bytesOp_call (utf8 : List Nat → Bool) (t : Nat) (r : List Nat) : bytesOp utf8 (0xf1 :: t :: r) = none := by
  have key : ∀ m, parseBrew utf8 (0xf1 :: t :: r) = .ok m → m.op = none := by
    intro m h
    unfold parseBrew at h
    rw [if_neg (by simp)] at h
    simp only [byteAt, List.getElem?_cons_zero, List.getElem?_cons_succ, Out.bind_ok] at h
    rw [if_neg (by decide), if_pos trivial] at h
    unfold parseCall at h
    split at h
    · cases h
    · simp only [Out.bind_eq_ok] at h
      obtain ⟨_, -, _, -, _, -, h⟩ := h
      cases h; rfl
  unfold bytesOp
  split
  · rename_i m h; exact key m h
  · rfl

theorem bytesOp_frame (utf8 : List Nat → Bool) (t : Nat) (r : List Nat) : bytesOp utf8 (0xf2 :: t :: r) = none := by
  have key : ∀ m, parseBrew utf8 (0xf2 :: t :: r) = .ok m → m.op = none := by
    intro m h
    unfold parseBrew at h
    rw [if_neg (by simp)] at h
    simp only [byteAt, List.getElem?_cons_zero, List.getElem?_cons_succ, Out.bind_ok] at h
    rw [if_neg (by decide), if_neg (by decide), if_pos trivial] at h
    unfold parseFrame at h
    split at h
    · cases h
    · simp only [Out.bind_eq_ok] at h
      obtain ⟨_, -, _, -, _, -, h⟩ := h
      cases h; rfl
  unfold bytesOp
  split
  · rename_i m h; exact key m h
  · rfl

theorem took_all (l : List (List Nat)) : took (fun _ => true) l = l := by
  unfold took
  rw [List.filter_eq_self.2 (by simp)]
  simp

/-- What a command means to the server if the transport takes everything. -/
theorem command_told (utf8 : List Nat → Bool) (s : Worker) (clock : Clock) (hs : clock.secs < 2 ^ 64) (hn : clock.nanos < 2 ^ 32)
    (c : BrewCmd) (hc : c.U32) :
    (s.command clock (fun _ => true) c).2.filterMap (bytesOp utf8) = c.op.toList := by
  cases c with
  | register n =>
    have h := c58_subscriber utf8 clock n [] hc hs hn (by simp)
    simp only [Worker.command, took_all]
    split <;> simp [bytesOp, h.1, h.2.1, BrewMsg.op, BrewCmd.op]
  | deregister n =>
    have h := c58_subscriber utf8 clock n [] hc hs hn (by simp)
    simp [Worker.command, took_all, bytesOp, h.2.2.2.2, BrewMsg.op, BrewCmd.op]
  | affiliate n gs =>
    have h := c58_subscriber utf8 clock n gs hc.1 hs hn hc.2
    simp [Worker.command, took_all, bytesOp, h.2.2.1, BrewMsg.op, BrewCmd.op]
  | deaffiliate n gs =>
    have h := c58_subscriber utf8 clock n gs hc.1 hs hn hc.2
    simp [Worker.command, took_all, bytesOp, h.2.2.2.1, BrewMsg.op, BrewCmd.op]
  | groupTx u a b p v => simp [Worker.command, took_all, buildGroupTx, bytesOp_call, BrewCmd.op]
  | voice u bits d => simp [Worker.command, took_all, buildVoice, bytesOp_frame, BrewCmd.op]
  | groupIdle u c => simp [Worker.command, took_all, buildIdle, bytesOp_call, BrewCmd.op]
  | sds u a b d n =>
    simp only [Worker.command]
    split <;> simp [buildShort, buildSds, bytesOp_call, bytesOp_frame, BrewCmd.op]
  | sdsReport u st =>
    simp only [Worker.command]
    split <;> simp [took_all, buildReport, bytesOp_frame, BrewCmd.op]
  | disconnect => exact hc.elim

theorem mem_insertAll (gs : List Nat) (set : List Nat) (g : Nat) : g ∈ insertAll set gs ↔ g ∈ set ∨ g ∈ gs := by
  induction gs generalizing set with
  | nil => simp [insertAll]
  | cons x gs ih =>
    rw [insertAll, List.foldl_cons, ← insertAll, ih]
    split
    · rename_i hx
      simp only [List.contains_iff_mem] at hx
      rw [List.mem_cons]
      constructor
      · rintro (h | h) <;> simp [h]
      · rintro (h | rfl | h)
        · exact .inl h
        · exact .inl hx
        · exact .inr h
    · simp only [List.mem_cons]
      constructor
      · rintro ((h | h) | h) <;> simp [h]
      · rintro (h | h | h) <;> simp [h]

theorem nodup_insertAll (gs : List Nat) (set : List Nat) (h : set.Nodup) : (insertAll set gs).Nodup := by
  induction gs generalizing set with
  | nil => exact h
  | cons x gs ih =>
    rw [insertAll, List.foldl_cons, ← insertAll]
    apply ih
    split
    · exact h
    · rename_i hx
      simp only [List.contains_iff_mem] at hx
      exact List.nodup_cons.2 ⟨hx, h⟩

theorem mem_removeAll (gs : List Nat) (set : List Nat) (g : Nat) : g ∈ removeAll set gs ↔ g ∈ set ∧ g ∉ gs := by
  simp [removeAll, List.mem_filter]

/-- The worker's own table follows the commands. -/
theorem command_table (s : Worker) (hs : TableOk s.groups) (clock : Clock) (ok : Nat → Bool) (c : BrewCmd) (hc : c.U32) :
    TableOk (s.command clock ok c).1.groups ∧
    tableReg (s.command clock ok c).1.groups = (tableReg s.groups).applyAll c.op.toList := by
  cases c with
  | register n => exact ⟨hs.orEmpty hc, tableReg_orEmpty _ _⟩
  | deregister n => exact ⟨hs.erase n, tableReg_erase _ _⟩
  | affiliate n gs =>
    obtain ⟨hd, hl⟩ := hs.getD n
    simp only [Worker.command]
    refine ⟨hs.insert hc.1 (nodup_insertAll _ _ hd) ?_, ?_⟩
    · intro g hg
      rcases (mem_insertAll _ _ _).1 hg with h | h
      · exact hl g h
      · exact hc.2 g h
    · rw [tableReg_insert]
      apply Reg.ext
      · rfl
      · funext m g; apply propext
        simp only [Reg.applyAll, BrewCmd.op, Option.toList, List.foldl_cons, List.foldl_nil, Reg.apply, mem_insertAll]
        have hmem : ∀ g, g ∈ (s.groups.get n).getD [] ↔ (tableReg s.groups).member n g := by
          intro g
          simp only [tableReg]
          cases h : s.groups.get n <;> simp
        rw [hmem]
        constructor
        · rintro (⟨-, h⟩ | ⟨rfl, h | h⟩)
          · exact .inl h
          · exact .inl h
          · exact .inr ⟨rfl, h⟩
        · rintro (h | ⟨rfl, h⟩)
          · by_cases hm : m = n
            · subst hm; exact .inr ⟨rfl, .inl h⟩
            · exact .inl ⟨hm, h⟩
          · exact .inr ⟨rfl, .inr h⟩
  | deaffiliate n gs =>
    cases hget : s.groups.get n with
    | none =>
      simp only [Worker.command, hget]
      refine ⟨hs, ?_⟩
      apply Reg.ext
      · rfl
      · funext m g; apply propext
        simp only [Reg.applyAll, BrewCmd.op, Option.toList, List.foldl_cons, List.foldl_nil, Reg.apply]
        constructor
        · intro h
          refine ⟨h, ?_⟩
          rintro ⟨rfl, -⟩
          obtain ⟨l, h, -⟩ := h
          rw [hget] at h; cases h
        · exact fun h => h.1
    | some set =>
      simp only [Worker.command, hget]
      refine ⟨hs.insert hc.1 ((hs.nodup n set hget).filter _) ?_, ?_⟩
      · intro g hg
        exact (hs.u32 n set hget).2 g ((mem_removeAll _ _ _).1 hg).1
      · rw [tableReg_insert]
        have hmem : ∀ g, g ∈ set ↔ (tableReg s.groups).member n g := by
          intro g
          simp only [tableReg, hget, Option.some.injEq]
          exact ⟨fun h => ⟨set, rfl, h⟩, fun ⟨l, e, h⟩ => e ▸ h⟩
        apply Reg.ext
        · funext m; apply propext
          simp only [Reg.applyAll, BrewCmd.op, Option.toList, List.foldl_cons, List.foldl_nil, Reg.apply]
          constructor
          · rintro (h | rfl)
            · exact h
            · simp [tableReg, hget]
          · exact .inl
        · funext m g; apply propext
          simp only [Reg.applyAll, BrewCmd.op, Option.toList, List.foldl_cons, List.foldl_nil, Reg.apply, mem_removeAll, hmem]
          constructor
          · rintro (⟨h1, h2⟩ | ⟨rfl, h1, h2⟩)
            · exact ⟨h2, fun h => h1 h.1⟩
            · exact ⟨h1, fun h => h2 h.2⟩
          · rintro ⟨h1, h2⟩
            by_cases hm : m = n
            · subst hm; exact .inr ⟨rfl, h1, fun h => h2 ⟨rfl, h⟩⟩
            · exact .inl ⟨hm, h1⟩
  | sds u a b d n => simp only [Worker.command]; split <;> exact ⟨hs, rfl⟩
  | sdsReport u st => simp only [Worker.command]; split <;> exact ⟨hs, rfl⟩
  | _ => exact ⟨hs, rfl⟩

/-! ## The invariant -/

/-- What the commands under way will do. -/
def Link.ops (s : Link) : List RegOp := s.cmds.filterMap BrewCmd.op

/-- `P` is who is here. -/
structure LinkInv (utf8 : List Nat → Bool) (cfg : Cfg) (P : Reg) (s : Link) : Prop where
  conf : s.ent.cfg = cfg
  subs : TableOk s.ent.subs
  reg : tableReg s.ent.subs = P
  cmds : ∀ c ∈ s.cmds, c.U32
  fresh : (Reg.none.applyAll s.ops).Le (P.routed cfg)
  some : s.up = true → s.whole = true → ((known utf8 s.heard).applyAll s.ops).Le (P.routed cfg)
  all : s.up = true → s.whole = true → .connected ∉ s.evs → (known utf8 s.heard).applyAll s.ops = P.routed cfg
  table : TableOk s.worker.groups
  covered : s.up = true → s.whole = true → (known utf8 s.heard).Le (tableReg s.worker.groups)

/-- The entity adds commands, and who is here changes accordingly. -/
theorem LinkInv.more {utf8 : List Nat → Bool} {cfg : Cfg} {P P' : Reg} {s : Link} (h : LinkInv utf8 cfg P s) {ent : Ent}
    {evs : List BrewEvent} {cs : List BrewCmd} (hcfg : ent.cfg = cfg) (hsub : TableOk ent.subs) (hreg : tableReg ent.subs = P')
    (hcs : ∀ c ∈ cs, c.U32) (hevs : .connected ∉ evs → .connected ∉ s.evs)
    (hops : (P.routed cfg).applyAll (cs.filterMap BrewCmd.op) = P'.routed cfg) :
    LinkInv utf8 cfg P' { s with ent := ent, evs := evs, cmds := s.cmds ++ cs } := by
  have hap : ∀ r : Reg, r.applyAll (Link.ops { s with ent := ent, evs := evs, cmds := s.cmds ++ cs }) =
      (r.applyAll s.ops).applyAll (cs.filterMap BrewCmd.op) := by
    intro r
    simp only [Link.ops, List.filterMap_append, Reg.applyAll_append]
  refine ⟨hcfg, hsub, hreg, ?_, ?_, ?_, ?_, h.table, h.covered⟩
  · intro c hc
    rcases List.mem_append.1 hc with hc | hc
    · exact h.cmds c hc
    · exact hcs c hc
  · rw [hap, ← hops]; exact Reg.applyAll_mono h.fresh _
  · intro h1 h2
    rw [hap, ← hops]; exact Reg.applyAll_mono (h.some h1 h2) _
  · intro h1 h2 h3
    rw [hap, ← hops, h.all h1 h2 (hevs h3)]

theorem filterMap_none {α β : Type} {f : α → Option β} {l : List α} (h : ∀ x ∈ l, f x = none) : l.filterMap f = [] := by
  rw [List.filterMap_eq_nil_iff]; exact h

theorem present_snoc (h : List LinkEv) (e : LinkEv) : present (h ++ [e]) = match e with
    | .entity (.update u) => (present h).apply (updateOp u)
    | _ => present h := by
  unfold present linkUpdates
  rw [List.filterMap_append, List.map_append, Reg.applyAll_append]
  cases e with
  | entity e => cases e <;> rfl
  | _ => rfl

theorem entity_step_eq {utf8 : List Nat → Bool} {s s' : Link} {e : EntEv} (h : s.step utf8 (.entity e) = some s') :
    (∀ b r n j, e ≠ .event b r n j) ∧ s' = { s with ent := (s.ent.step e).1, cmds := s.cmds ++ cmdsOf (s.ent.step e).2 } := by
  cases e <;> first
    | (cases h; exact ⟨by simp, rfl⟩)
    | (simp [Link.step] at h)

theorem linkRun_inv {utf8 : List Nat → Bool} {cfg : Cfg} {latency : Nat} {h : List LinkEv} {s : Link}
    (hr : LinkRun utf8 cfg latency h s) : LinkInv utf8 cfg (present h) s := by
  induction hr with
  | init =>
    have hn : tableReg [] = Reg.none := by
      apply Reg.ext
      · funext n; apply propext; simp [tableReg, Reg.none]
      · funext n g; apply propext; simp [tableReg, Reg.none]
    have ht : TableOk [] := ⟨Assoc.ok_nil, by simp, by simp⟩
    exact ⟨rfl, ht, hn, by simp [Link.init], Reg.none_le _, by simp [Link.init], by simp [Link.init], ht, by simp [Link.init]⟩
  | @reorder h s a b hr ha hb ih =>
    exact ⟨ih.conf, ha.ok ih.subs, (ha.reg ih.subs.ok).trans ih.reg, ih.cmds, ih.fresh, ih.some, ih.all, hb.ok ih.table,
      fun h1 h2 => by rw [show ({ s with ent := { s.ent with subs := a }, worker := { s.worker with groups := b } } : Link).worker.groups = b
        from rfl, hb.reg ih.table.ok]; exact ih.covered h1 h2⟩
  | @step h s s' e hr he hs ih =>
    rw [present_snoc]
    cases e with
    | entity e =>
      obtain ⟨hne, rfl⟩ := entity_step_eq hs
      by_cases hu : ∃ u, e = .update u
      · obtain ⟨u, rfl⟩ := hu
        obtain ⟨a, b, c, d, f⟩ := update_spec s.ent ih.subs u he
        rw [ih.conf, ih.reg] at f
        rw [ih.reg] at b
        exact ih.more (evs := s.evs) (c.trans ih.conf) a b d id f
      · have hu : ∀ u, e ≠ .update u := fun u h => hu ⟨u, h⟩
        obtain ⟨a, b, c⟩ := other_step s.ent e hu hne
        have hP : (match LinkEv.entity e with
            | .entity (.update u) => (present h).apply (updateOp u)
            | _ => present h) = present h := by
          cases e <;> first
            | rfl
            | exact absurd rfl (hu _)
        rw [hP]
        refine ih.more (evs := s.evs) (b.trans ih.conf) (a ▸ ih.subs) (by rw [a]; exact ih.reg) (fun x hx => (c x hx).2) id ?_
        rw [filterMap_none fun x hx => (c x hx).1]; rfl
    | deliver registered now j =>
      simp only [Link.step] at hs
      split at hs
      · cases hs
      · rename_i b evs hevs
        cases hs
        by_cases hb : b = .connected
        · subst hb
          obtain ⟨a, c⟩ := resync_spec s.ent ih.subs
          rw [ih.conf, ih.reg] at c
          have hap : ∀ r : Reg, r.applyAll ((s.cmds ++ cmdsOf s.ent.resync).filterMap BrewCmd.op) =
              (r.applyAll s.ops).applyAll ((cmdsOf s.ent.resync).filterMap BrewCmd.op) := by
            intro r
            rw [List.filterMap_append, Reg.applyAll_append]; rfl
          refine ⟨ih.conf, ih.subs, ih.reg, ?_, ?_, ?_, ?_, ih.table, ih.covered⟩
          · intro x hx
            rcases List.mem_append.1 hx with hx | hx
            · exact ih.cmds x hx
            · exact a x hx
          · simp only [Link.ops, Ent.event]
            rw [hap, c _ ih.fresh]; exact Reg.Le.rfl
          · intro h1 h2
            simp only [Link.ops, Ent.event]
            rw [hap, c _ (ih.some h1 h2)]; exact Reg.Le.rfl
          · intro h1 h2 _
            simp only [Link.ops, Ent.event]
            rw [hap, c _ (ih.some h1 h2)]
        · obtain ⟨a, c, d⟩ := other_event s.ent registered now j b hb
          refine ih.more (c.trans ih.conf) (a ▸ ih.subs) (by rw [a]; exact ih.reg) (fun x hx => (d x hx).2) ?_ ?_
          · intro hx hy
            rw [hevs] at hy
            rcases List.mem_cons.1 hy with rfl | hy
            · exact hb rfl
            · exact hx hy
          · rw [filterMap_none fun x hx => (d x hx).1]; rfl
    | connect =>
      simp only [Link.step] at hs
      split at hs
      · cases hs
      · cases hs
        refine ⟨ih.conf, ih.subs, ih.reg, ih.cmds, ih.fresh, fun _ _ => ih.fresh, ?_, ih.table, fun _ _ => Reg.none_le _⟩
        intro _ _ h3
        exact absurd (by simp) h3
    | refused =>
      simp only [Link.step] at hs
      split at hs
      · cases hs
      · cases hs
        rename_i hup
        exact ⟨ih.conf, ih.subs, ih.reg, ih.cmds, ih.fresh, ih.some, fun h1 => absurd h1 hup, ih.table, ih.covered⟩
    | lost =>
      simp only [Link.step] at hs
      split at hs
      · cases hs
        exact ⟨ih.conf, ih.subs, ih.reg, ih.cmds, ih.fresh, (nomatch ·), (nomatch ·), ih.table, (nomatch ·)⟩
      · cases hs
    | receive now data =>
      simp only [Link.step] at hs
      split at hs
      · split at hs
        · rename_i r hr2
          cases hs
          obtain ⟨r1, r2⟩ := r
          have hg := (receive_cases hr2).2.1
          exact ⟨ih.conf, ih.subs, ih.reg, ih.cmds, ih.fresh, ih.some,
            fun h1 h2 h3 => ih.all h1 h2 fun h4 => h3 (List.mem_append_left _ h4), hg ▸ ih.table, fun h1 h2 => by
              simp only [hg]; exact ih.covered h1 h2⟩
        · cases hs
      · cases hs
    | expire now =>
      simp only [Link.step] at hs
      split at hs
      · cases hs
        exact ⟨ih.conf, ih.subs, ih.reg, ih.cmds, ih.fresh, ih.some, ih.all, ih.table, ih.covered⟩
      · cases hs
    | exec clock ok =>
      obtain ⟨hc1, hc2⟩ := he
      simp only [Link.step] at hs
      split at hs
      · rename_i hup
        cases hq : s.cmds with
        | nil => simp [hq] at hs
        | cons c cs =>
          have hc := ih.cmds c (by simp [hq])
          have hcd : c ≠ .disconnect := by rintro rfl; exact hc
          have hs' : s' = { s with
              worker := (s.worker.command clock ok c).1, cmds := cs, heard := s.heard ++ (s.worker.command clock ok c).2
              whole := s.whole && decide ((s.worker.command clock ok c).2 = (s.worker.command clock (fun _ => true) c).2) } := by
            cases c <;> first
              | exact absurd rfl hcd
              | (simp only [hq] at hs; exact (Option.some.inj hs).symm)
          subst hs'
          have hops : s.ops = c.op.toList ++ cs.filterMap BrewCmd.op := by
            rw [Link.ops, hq, List.filterMap_cons]
            cases c.op <;> rfl
          obtain ⟨t1, t2⟩ := command_table s.worker ih.table clock ok c hc
          have hknown : (s.worker.command clock ok c).2 = (s.worker.command clock (fun _ => true) c).2 →
              known utf8 (s.heard ++ (s.worker.command clock ok c).2) = (known utf8 s.heard).applyAll c.op.toList := by
            intro heq
            rw [heq, known, List.filterMap_append, Reg.applyAll_append, command_told utf8 s.worker clock hc1 hc2 c hc]
            rfl
          have hw : (s.whole && decide ((s.worker.command clock ok c).2 = (s.worker.command clock (fun _ => true) c).2)) = true →
              s.whole = true ∧ (s.worker.command clock ok c).2 = (s.worker.command clock (fun _ => true) c).2 := by
            simp
          have hfr := ih.fresh
          have hso := ih.some hup
          have hal := ih.all hup
          rw [hops] at hfr hso hal
          simp only [Reg.applyAll_append] at hfr hso hal
          refine ⟨ih.conf, ih.subs, ih.reg, ?_, ?_, ?_, ?_, t1, ?_⟩
          · intro x hx; exact ih.cmds x (by simp [hq]; exact .inr hx)
          · exact (Reg.applyAll_mono (Reg.none_le _) _).trans hfr
          · intro _ h2
            obtain ⟨h2, h3⟩ := hw h2
            simp only [hknown h3]
            exact hso h2
          · intro _ h2 h4
            obtain ⟨h2, h3⟩ := hw h2
            simp only [hknown h3]
            exact hal h2 h4
          · intro _ h2
            obtain ⟨h2, h3⟩ := hw h2
            simp only [hknown h3, t2]
            exact Reg.applyAll_mono (ih.covered hup h2) _
      · cases hs

/-! ## C60 -/

/-- C60: whatever happened before, lost connections included: when the entity knows of the present connection, the worker has
nothing left to do and the transport took every message, then the server knows exactly the stations which are here and whose
numbers are routed over the network, and exactly their groups. -/
theorem c60_subscribers {utf8 : List Nat → Bool} {cfg : Cfg} {latency : Nat} {h : List LinkEv} {s : Link}
    (hr : LinkRun utf8 cfg latency h s) (hup : s.up = true) (hw : s.whole = true) (hc : s.cmds = []) (he : .connected ∉ s.evs) :
    (∀ n, (known utf8 s.heard).here n ↔ (present h).here n ∧ issiRoutable cfg n = true) ∧
    ∀ n g, (known utf8 s.heard).member n g ↔ (present h).member n g ∧ issiRoutable cfg n = true := by
  have := (linkRun_inv hr).all hup hw he
  rw [Link.ops, hc, List.filterMap_nil, Reg.applyAll, List.foldl_nil] at this
  rw [this]
  exact ⟨fun _ => Iff.rfl, fun _ _ => Iff.rfl⟩

/-- C60: at any time the server, once it has got the commands under way, knows no station and no membership that is not there. -/
theorem c60_nothing_false {utf8 : List Nat → Bool} {cfg : Cfg} {latency : Nat} {h : List LinkEv} {s : Link}
    (hr : LinkRun utf8 cfg latency h s) (hup : s.up = true) (hw : s.whole = true) (hc : s.cmds = []) :
    (∀ n, (known utf8 s.heard).here n → (present h).here n ∧ issiRoutable cfg n = true) ∧
    ∀ n g, (known utf8 s.heard).member n g → (present h).member n g ∧ issiRoutable cfg n = true := by
  have := (linkRun_inv hr).some hup hw
  rw [Link.ops, hc, List.filterMap_nil, Reg.applyAll, List.foldl_nil] at this
  exact this

/-- C60: when the worker takes its leave and the transport takes every message, the server knows no station of this cell any
more. -/
theorem c60_leave {utf8 : List Nat → Bool} {cfg : Cfg} {latency : Nat} {h : List LinkEv} {s : Link}
    (hr : LinkRun utf8 cfg latency h s) (hup : s.up = true) (hw : s.whole = true) (clock : Clock) (hs : clock.secs < 2 ^ 64)
    (hn : clock.nanos < 2 ^ 32) :
    (∀ n, ¬ (known utf8 (s.heard ++ (s.worker.command clock (fun _ => true) .disconnect).2)).here n) ∧
    ∀ n g, ¬ (known utf8 (s.heard ++ (s.worker.command clock (fun _ => true) .disconnect).2)).member n g := by
  have inv := linkRun_inv hr
  have key : ∀ (m : Assoc Nat (List Nat)), (∀ e ∈ m, e.1 < 2 ^ 32 ∧ ∀ g ∈ e.2, g < 2 ^ 32) → ∀ r : Reg,
      (r.applyAll ((({ s.worker with groups := m } : Worker).teardown clock).filterMap (bytesOp utf8))).Le r ∧
      ∀ e ∈ m, (¬ (r.applyAll ((({ s.worker with groups := m } : Worker).teardown clock).filterMap (bytesOp utf8))).here e.1) ∧
        ∀ g, ¬ (r.applyAll ((({ s.worker with groups := m } : Worker).teardown clock).filterMap (bytesOp utf8))).member e.1 g := by
    intro m
    induction m with
    | nil => intro _ r; exact ⟨Reg.Le.rfl, by simp⟩
    | cons e m ih =>
      intro hm r
      obtain ⟨n, gs⟩ := e
      have hu := hm (n, gs) (by simp)
      have ih := ih fun x hx => hm x (by simp [hx])
      have heq : ({ s.worker with groups := (n, gs) :: m } : Worker).teardown clock =
          ((if gs.isEmpty then [] else [buildDeaffiliate clock n (gs.mergeSort (· ≤ ·))]) ++ [buildDeregister clock n]) ++
          ({ s.worker with groups := m } : Worker).teardown clock := rfl
      have hb := c58_subscriber utf8 clock n (gs.mergeSort (· ≤ ·)) hu.1 hs hn (by intro g hg; exact hu.2 g (by simpa using hg))
      have hd : bytesOp utf8 (buildDeaffiliate clock n (gs.mergeSort (· ≤ ·))) = some (.part n (gs.mergeSort (· ≤ ·))) := by
        simp [bytesOp, hb.2.2.2.1, BrewMsg.op]
      have hg : bytesOp utf8 (buildDeregister clock n) = some (.leave n) := by
        simp [bytesOp, hb.2.2.2.2, BrewMsg.op]
      have hone : ∃ r' : Reg, r'.Le r ∧ (¬ r'.here n) ∧ (∀ g, ¬ r'.member n g) ∧
          r.applyAll (((if gs.isEmpty then [] else [buildDeaffiliate clock n (gs.mergeSort (· ≤ ·))]) ++
            [buildDeregister clock n]).filterMap (bytesOp utf8)) = r' := by
        split
        · refine ⟨r.apply (.leave n), ⟨fun m h => h.1, fun m g h => h.1⟩, fun h => h.2 rfl, fun g h => h.2 rfl, ?_⟩
          simp [hg, Reg.applyAll]
        · refine ⟨(r.apply (.part n (gs.mergeSort (· ≤ ·)))).apply (.leave n), ⟨fun m h => h.1, fun m g h => h.1.1⟩, fun h => h.2 rfl,
            fun g h => h.2 rfl, ?_⟩
          simp [hg, hd, Reg.applyAll]
      obtain ⟨r', h1, h2, h3, h4⟩ := hone
      rw [heq, List.filterMap_append, Reg.applyAll_append, h4]
      obtain ⟨i1, i2⟩ := ih r'
      refine ⟨i1.trans h1, ?_⟩
      intro x hx
      rcases List.mem_cons.1 hx with rfl | hx
      · exact ⟨fun h => h2 (i1.1 _ h), fun g h => h3 g (i1.2 _ _ h)⟩
      · exact i2 x hx
  obtain ⟨k1, k2⟩ := key s.worker.groups (fun e he => inv.table.u32 e.1 e.2 (Assoc.get_of_mem inv.table.ok he)) (known utf8 s.heard)
  have hc : (s.worker.command clock (fun _ => true) .disconnect).2 = s.worker.teardown clock := took_all _
  rw [hc, known, List.filterMap_append, Reg.applyAll_append]
  have cov := inv.covered hup hw
  constructor
  · intro n h
    have := cov.1 n (k1.1 n h)
    obtain ⟨gs, hg⟩ := Option.isSome_iff_exists.1 this
    exact (k2 (n, gs) (Assoc.mem_of_get hg)).1 h
  · intro n g h
    obtain ⟨gs, hg, -⟩ := cov.2 n g (k1.2 n g h)
    exact (k2 (n, gs) (Assoc.mem_of_get hg)).2 g h

/-- Run a list of events, for concrete histories. -/
def Link.run (utf8 : List Nat → Bool) (s : Link) : List LinkEv → Option Link
  | [] => some s
  | e :: es => (s.step utf8 e).bind fun s' => s'.run utf8 es

theorem linkRun_of_run {utf8 : List Nat → Bool} {cfg : Cfg} {latency : Nat} {h es : List LinkEv} {s s' : Link}
    (hr : LinkRun utf8 cfg latency h s) (hes : ∀ e ∈ es, e.Ok) (hs : s.run utf8 es = some s') :
    LinkRun utf8 cfg latency (h ++ es) s' := by
  induction es generalizing h s with
  | nil => cases hs; simpa using hr
  | cons e es ih =>
    simp only [Link.run, Option.bind_eq_some_iff] at hs
    obtain ⟨s1, h1, h2⟩ := hs
    have := ih (.step hr (hes e (by simp)) h1) (fun x hx => hes x (by simp [hx])) h2
    simpa using this

/-- Station 5 registers and joins groups 91 and 92; the connection is lost; the station leaves 92; a new connection is made. The
server of the new connection is told of REREGISTER, as the worker keeps its table, and in the end knows 5 in 91. -/
example : ∃ h s, LinkRun (fun _ => true) ⟨some ⟨"example", none, true⟩, []⟩ 4 h s ∧ s.up = true ∧ s.whole = true ∧ s.cmds = [] ∧
    .connected ∉ s.evs ∧ (present h).here 5 ∧ (present h).member 5 91 ∧ ¬ (present h).member 5 92 ∧
    s.heard = [buildDeaffiliate ⟨0, 0⟩ 5 [92], buildReregister ⟨0, 0⟩ 5, buildAffiliate ⟨0, 0⟩ 5 [91]] := by
  let ev (e : Cmce.SubUpdate) : LinkEv := .entity (.update e)
  let d : LinkEv := .deliver (fun _ => true) 0 0
  let x : LinkEv := .exec ⟨0, 0⟩ fun _ => true
  refine ⟨_, _, linkRun_of_run (es := [.connect, d, ev (.register 5), ev (.affiliate 5 [91, 92]), x, x, .lost,
    ev (.deaffiliate 5 [92]), .connect, d, d, x, x, x]) .init ?_ rfl, rfl, rfl, rfl, ?_, ?_, ?_, ?_, rfl⟩
  · intro e he
    simp only [List.mem_cons, List.not_mem_nil, or_false] at he
    rcases he with rfl | rfl | rfl | rfl | rfl | rfl | rfl | rfl | rfl | rfl | rfl | rfl | rfl | rfl <;>
      simp [d, x, ev, LinkEv.Ok, updateOk]
  · exact List.not_mem_nil
  · exact .inl (.inr rfl)
  · exact ⟨.inr ⟨rfl, by simp⟩, by simp⟩
  · exact fun h => h.2 ⟨rfl, by simp⟩

end Verif.Brew
