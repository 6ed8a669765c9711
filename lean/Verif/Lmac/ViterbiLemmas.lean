import Verif.Lmac.Viterbi
/-! # Correctness of the trellis search -/
namespace Verif.Viterbi

/-! ## The ideal trellis -/

/-- State after reading bit `b` in state `p`. -/
def next (p : Nat) (b : Bool) : Nat := b.toNat * 8 + p / 2

/-- State after a bit string. -/
def final : Nat → List Bool → Nat
  | s, [] => s
  | s, b :: bs => final (next s b) bs

/-- Exact branch metric. -/
def bsum : List Int → List Poly → Nat → Int
  | r :: c, p :: ps, s => -(r * expected0 p s) + bsum c ps s
  | _, _, _ => 0

/-- Exact cost of the edge from `p` with bit `b`. -/
def edge (polys : List Poly) (c : List Int) (p : Nat) (b : Bool) : Int :=
  if p % 2 = 0 then bsum c polys (next p b) else -bsum c polys (next p b)

/-- Exact cost of a path. -/
def cost (polys : List Poly) : Nat → List Bool → List (List Int) → Int
  | s, b :: bs, c :: cs => edge polys c s b + cost polys (next s b) bs cs
  | _, _, _ => 0

theorem final_append (s : Nat) (x y : List Bool) : final s (x ++ y) = final (final s x) y := by
  induction x generalizing s with
  | nil => rfl
  | cons b x ih => simp [final, ih]

theorem cost_snoc (polys : List Poly) (s : Nat) (x : List Bool) (cs : List (List Int)) (b : Bool) (c : List Int)
    (h : x.length = cs.length) : cost polys s (x ++ [b]) (cs ++ [c]) = cost polys s x cs + edge polys c (final s x) b := by
  induction x generalizing s cs with
  | nil =>
    cases cs with
    | nil => simp [cost, final]
    | cons c cs => simp at h
  | cons a x ih =>
    cases cs with
    | nil => simp at h
    | cons c' cs =>
      simp only [List.cons_append, cost, final]
      rw [ih _ _ (by simpa using h)]
      omega

theorem next_lt {p : Nat} (h : p < 16) (b : Bool) : next p b < 16 := by
  unfold next; cases b <;> simp <;> omega

theorem final_lt {s : Nat} (h : s < 16) (x : List Bool) : final s x < 16 := by
  induction x generalizing s with
  | nil => exact h
  | cons b x ih => exact ih (next_lt h b)

/-! ## Wrap-around never happens -/

theorem w16_eq {x : Int} (h1 : -32768 ≤ x) (h2 : x ≤ 32767) : w16 x = x := by
  unfold w16
  rw [Int.bmod_def]; split <;> omega

/-- Soft values are -1, 0 or 1. -/
def Small (c : List Int) : Prop := ∀ r ∈ c, -1 ≤ r ∧ r ≤ 1

theorem expected0_cases (p : Poly) (s : Nat) : expected0 p s = 1 ∨ expected0 p s = -1 := by
  unfold expected0; split <;> simp

theorem mul_small {r : Int} (h : -1 ≤ r ∧ r ≤ 1) (p : Poly) (s : Nat) :
    -1 ≤ r * expected0 p s ∧ r * expected0 p s ≤ 1 := by
  rcases expected0_cases p s with e | e <;> rw [e] <;> omega

theorem bsum_bound (c : List Int) (ps : List Poly) (s : Nat) (h : Small c) :
    -(ps.length : Int) ≤ bsum c ps s ∧ bsum c ps s ≤ ps.length := by
  induction c generalizing ps with
  | nil => cases ps <;> simp [bsum] <;> omega
  | cons r c ih =>
    cases ps with
    | nil => simp [bsum]
    | cons p ps =>
      have h1 := mul_small (h r (by simp)) p s
      have h2 := ih ps (fun x hx => h x (by simp [hx]))
      simp only [bsum, List.length_cons]
      omega

theorem branch_eq (polys : List Poly) (c : List Int) (s : Nat) (h : Small c) (hn : polys.length ≤ 1000) :
    branch polys c s = bsum c polys s := by
  have key : ∀ (c : List Int) (ps : List Poly) (m : Int), Small c → -32768 ≤ m - ps.length → m + ps.length ≤ 32767 →
      (c.zip ps).foldl (fun m rp => w16 (m - rp.1 * expected0 rp.2 s)) m = m + bsum c ps s := by
    intro c
    induction c with
    | nil => intro ps m _ _ _; cases ps <;> simp [bsum]
    | cons r c ih =>
      intro ps m hc h1 h2
      cases ps with
      | nil => simp [bsum]
      | cons p ps =>
        have hm := mul_small (hc r (by simp)) p s
        simp only [List.length_cons] at h1 h2
        simp only [List.zip_cons_cons, List.foldl_cons, bsum]
        rw [w16_eq (by omega) (by omega), ih ps _ (fun x hx => hc x (by simp [hx])) (by omega) (by omega)]
        omega
  have := key c polys 0 h (by omega) (by omega)
  unfold branch
  rw [this]; omega

/-! ## The survivor invariant -/

def initM (s : Nat) : Int := if s = 0 then 0 else bigMetric

theorem initMetrics_getD {s : Nat} (h : s < 16) : initMetrics.getD s 0 = initM s := by
  have : ∀ s : Fin 16, initMetrics.getD s.val 0 = initM s.val := by decide
  exact this ⟨s, h⟩

/-- The state in which the traceback ends. -/
def startState : List (List Bool) → Nat → Nat
  | [], s => s
  | d :: ds, s => startState ds (s * 2 % 16 + (d.getD s false).toNat)

/-- The predecessor along which a decision leads. -/
theorem pred_facts : ∀ s, s < 16 → ∀ d : Bool, s * 2 % 16 + d.toNat < 16 ∧
    next (s * 2 % 16 + d.toNat) ((s >>> 3) &&& 1 == 1) = s ∧ (s * 2 % 16 + d.toNat) % 2 = d.toNat := by
  have : ∀ s : Fin 16, ∀ d : Bool, s.val * 2 % 16 + d.toNat < 16 ∧
    next (s.val * 2 % 16 + d.toNat) ((s.val >>> 3) &&& 1 == 1) = s.val ∧ (s.val * 2 % 16 + d.toNat) % 2 = d.toNat := by decide
  intro s h d; exact this ⟨s, h⟩ d

theorem pred_unique : ∀ p, p < 16 → ∀ b : Bool, p = next p b * 2 % 16 + p % 2 ∧ ((next p b >>> 3) &&& 1 == 1) = b := by
  have : ∀ p : Fin 16, ∀ b : Bool, p.val = next p.val b * 2 % 16 + p.val % 2 ∧ ((next p.val b >>> 3) &&& 1 == 1) = b := by decide
  intro s h d; exact this ⟨s, h⟩ d

structure Inv (polys : List Poly) (cs : List (List Int)) (st : List Int × List (List Bool)) : Prop where
  lower : ∀ s0 x, s0 < 16 → x.length = cs.length → st.1.getD (final s0 x) 0 ≤ initM s0 + cost polys s0 x cs
  hit : ∀ s, s < 16 → startState st.2.reverse s < 16 ∧ (traceback st.2.reverse s).length = cs.length ∧
    final (startState st.2.reverse s) (traceback st.2.reverse s).reverse = s ∧
    st.1.getD s 0 = initM (startState st.2.reverse s) + cost polys (startState st.2.reverse s) (traceback st.2.reverse s).reverse cs
  bound : ∀ s, s < 16 → -((polys.length * cs.length : Nat) : Int) ≤ st.1.getD s 0 ∧ st.1.getD s 0 ≤ bigMetric + ((polys.length * cs.length : Nat) : Int)

theorem step_fst (polys : List Poly) (m : List Int) (c : List Int) {s : Nat} (h : s < 16) :
    (step polys m c).1.getD s 0 = (select m (branch polys c s) s).1 := by
  simp [step, List.getD, h]

theorem step_snd (polys : List Poly) (m : List Int) (c : List Int) {s : Nat} (h : s < 16) :
    (step polys m c).2.getD s false = (select m (branch polys c s) s).2 := by
  simp [step, List.getD, h]

theorem edge_pred (polys : List Poly) (c : List Int) {s : Nat} (h : s < 16) (d : Bool) :
    edge polys c (s * 2 % 16 + d.toNat) ((s >>> 3) &&& 1 == 1) = if d then -bsum c polys s else bsum c polys s := by
  obtain ⟨_, h2, h3⟩ := pred_facts s h d
  unfold edge
  rw [h2, h3]
  cases d <;> simp

theorem inv_step (polys : List Poly) (cs : List (List Int)) (st : List Int × List (List Bool)) (c : List Int)
    (hi : Inv polys cs st) (hc : Small c) (hn : polys.length ≤ 1000) (hb : polys.length * (cs.length + 1) ≤ 16384) :
    Inv polys (cs ++ [c]) ((step polys st.1 c).1, st.2 ++ [(step polys st.1 c).2]) := by
  have hlen : polys.length * (cs.length + 1) = polys.length * cs.length + polys.length := by rw [Nat.mul_add, Nat.mul_one]
  have hB : (polys.length * (cs.length + 1) : Nat) ≤ 16384 := hb
  generalize hL : polys.length * cs.length = L at *
  rw [hlen] at hb
  -- the two candidates of a state, without wrap-around
  have sel : ∀ s, s < 16 →
      let m0 := st.1.getD (s * 2 % 16) 0 + bsum c polys s
      let m1 := st.1.getD (s * 2 % 16 + 1) 0 - bsum c polys s
      select st.1 (branch polys c s) s = if m1 < m0 then (m1, true) else (m0, false) := by
    intro s hs
    have b1 := hi.bound (s * 2 % 16) (by omega)
    have b2 := hi.bound (s * 2 % 16 + 1) (by omega)
    rw [hL] at b1 b2
    have bb := bsum_bound c polys s hc
    unfold bigMetric at b1 b2
    simp only [select, branch_eq polys c s hc hn]
    rw [w16_eq (by omega) (by omega), w16_eq (by omega) (by omega)]
  have selmin : ∀ s, s < 16 → ∀ d : Bool, (step polys st.1 c).1.getD s 0 ≤
      st.1.getD (s * 2 % 16 + d.toNat) 0 + (if d then -bsum c polys s else bsum c polys s) := by
    intro s hs d
    rw [step_fst _ _ _ hs, sel s hs]
    cases d <;> simp <;> split <;> simp <;> omega
  have seldec : ∀ s, s < 16 → (step polys st.1 c).1.getD s 0 =
      st.1.getD (s * 2 % 16 + ((step polys st.1 c).2.getD s false).toNat) 0 +
        (if (step polys st.1 c).2.getD s false then -bsum c polys s else bsum c polys s) := by
    intro s hs
    rw [step_fst _ _ _ hs, step_snd _ _ _ hs, sel s hs]
    split <;> simp <;> omega
  constructor
  · intro s0 x h0 hx
    have hne : x ≠ [] := by intro h; simp [h] at hx
    obtain ⟨x', b, rfl⟩ : ∃ x' b, x = x' ++ [b] := ⟨x.dropLast, x.getLast hne, (List.dropLast_concat_getLast hne).symm⟩
    simp only [List.length_append, List.length_cons, List.length_nil, Nat.add_right_cancel_iff] at hx
    rw [cost_snoc _ _ _ _ _ _ hx, final_append]
    have hp := final_lt h0 x'
    generalize hpe : final s0 x' = p at *
    simp only [final]
    have hs := next_lt hp b
    obtain ⟨q1, q2⟩ := pred_unique p hp b
    have ih := hi.lower s0 x' h0 hx
    rw [hpe] at ih
    have hd : (p % 2 = 1) = true ∨ (p % 2 = 1) = false := by
      by_cases h : p % 2 = 1 <;> simp [h]
    have := selmin (next p b) hs (p % 2 == 1)
    have e := edge_pred polys c hs (p % 2 == 1)
    have tn : (p % 2 == 1).toNat = p % 2 := by
      rcases Nat.mod_two_eq_zero_or_one p with h | h <;> simp [h]
    rw [tn, ← q1] at this e
    rw [q2] at e
    rw [← e] at this
    omega
  · intro s hs
    simp only [List.reverse_append, List.reverse_cons, List.reverse_nil, List.nil_append, List.cons_append,
      startState, traceback]
    obtain ⟨q1, q2, q3⟩ := pred_facts s hs ((step polys st.1 c).2.getD s false)
    obtain ⟨i1, i2, i3, i4⟩ := hi.hit _ q1
    refine ⟨i1, by rw [List.length_cons, i2, List.length_append]; rfl, ?_, ?_⟩
    · rw [final_append, i3]; exact q2
    · rw [cost_snoc _ _ _ _ _ _ (by rw [List.length_reverse, i2]), i3, edge_pred polys c hs, seldec s hs, i4]
      omega
  · intro s hs
    simp only [List.length_append, List.length_cons, List.length_nil, Nat.zero_add]
    rw [hlen]
    obtain ⟨q1, q2, q3⟩ := pred_facts s hs ((step polys st.1 c).2.getD s false)
    have b1 := hi.bound _ q1
    rw [hL] at b1
    have bb := bsum_bound c polys s hc
    rw [seldec s hs]
    split <;> omega

theorem snocInd {α : Type} {motive : List α → Prop} (l : List α) (nil : motive [])
    (append_singleton : ∀ l a, motive l → motive (l ++ [a])) : motive l := by
  have : ∀ r : List α, motive r.reverse := by
    intro r
    induction r with
    | nil => exact nil
    | cons a r ih => rw [List.reverse_cons]; exact append_singleton _ _ ih
  have h := this l.reverse
  rwa [List.reverse_reverse] at h

theorem inv_forward (polys : List Poly) (cs : List (List Int)) (hc : ∀ c ∈ cs, Small c) (hn : polys.length ≤ 1000)
    (hb : polys.length * cs.length ≤ 16384) : Inv polys cs (forward polys cs) := by
  induction cs using snocInd with
  | nil =>
    constructor
    · intro s0 x h0 hx
      have : x = [] := by simpa using hx
      subst this
      have := initMetrics_getD h0
      simp only [forward, List.foldl_nil, final, cost]
      omega
    · intro s hs
      have := initMetrics_getD hs
      simp only [forward, List.foldl_nil, List.reverse_nil, startState, traceback, final, cost]
      exact ⟨hs, rfl, trivial, by omega⟩
    · intro s hs
      simp only [forward, List.foldl_nil, initMetrics_getD hs, initM, bigMetric]
      split <;> simp
  | append_singleton cs c ih =>
    have hb' : polys.length * (cs.length + 1) ≤ 16384 := by simpa using hb
    have ih := ih (fun x hx => hc x (by simp [hx])) (by rw [Nat.mul_add] at hb'; omega)
    have := inv_step polys cs _ c ih (hc c (by simp)) hn hb'
    unfold forward at this ⊢
    rw [List.foldl_append]
    exact this

/-! ## The decoder finds a cheapest terminated path -/

theorem cost_bound (polys : List Poly) (s : Nat) (x : List Bool) (cs : List (List Int)) (hc : ∀ c ∈ cs, Small c) :
    -((polys.length * cs.length : Nat) : Int) ≤ cost polys s x cs ∧ cost polys s x cs ≤ ((polys.length * cs.length : Nat) : Int) := by
  induction x generalizing s cs with
  | nil => simp only [cost]; omega
  | cons b x ih =>
    cases cs with
    | nil => simp [cost]
    | cons c cs =>
      simp only [cost, List.length_cons]
      have h1 := ih (next s b) cs (fun y hy => hc y (by simp [hy]))
      have h2 := bsum_bound c polys (next s b) (hc c (by simp))
      rw [Nat.mul_add, Nat.mul_one]
      unfold edge
      split <;> omega

theorem final_zeros (n : Nat) : final 0 (List.replicate n false) = 0 := by
  induction n with
  | zero => rfl
  | succ n ih => simpa [List.replicate_succ, final, next] using ih

theorem decode_chunks (polys : List Poly) (cs : List (List Int)) (hc : ∀ c ∈ cs, Small c) (hn : polys.length ≤ 1000)
    (hb : polys.length * cs.length ≤ 8000) :
    let out := (traceback (forward polys cs).2.reverse 0).reverse
    out.length = cs.length ∧ final 0 out = 0 ∧
      ∀ y, y.length = cs.length → final 0 y = 0 → cost polys 0 out cs ≤ cost polys 0 y cs := by
  have hi := inv_forward polys cs hc hn (by omega)
  obtain ⟨h1, h2, h3, h4⟩ := hi.hit 0 (by omega)
  have hz := hi.lower 0 (List.replicate cs.length false) (by omega) (by simp)
  rw [final_zeros] at hz
  have b1 := cost_bound polys 0 (List.replicate cs.length false) cs hc
  have b2 := cost_bound polys (startState (forward polys cs).2.reverse 0) (traceback (forward polys cs).2.reverse 0).reverse cs hc
  have hs0 : startState (forward polys cs).2.reverse 0 = 0 := by
    apply Classical.byContradiction
    intro hne
    rw [h4] at hz
    simp only [initM, hne, if_false, if_pos, bigMetric] at hz
    omega
  rw [hs0] at h3 h4
  refine ⟨by simp [h2], h3, ?_⟩
  intro y hy hf
  have := hi.lower 0 y (by omega) hy
  rw [hf, h4] at this
  simp only [initM] at this
  omega

end Verif.Viterbi
