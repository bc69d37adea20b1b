import Verif.Mem.WalkProps

/-! C139: traversals whose callback only changes values. -/

namespace Verif.Mem
open Avl (Tree)
open Spec
set_option linter.unusedSectionVars false
variable {α : Type} [LinearOrder α]

namespace Spec

/-- The nodes that hang at `p`. -/
inductive Nodes (s : St α) : Ptr → BT Nat → Prop
  | null : Nodes s none .nil
  | node {i : Nat} {c : Cell α} {l r : BT Nat} : s.mem i = some c → Nodes s c.left l → Nodes s c.right r → Nodes s (some i) (.node i l r)

def BT.inList {β : Type} : BT β → List β
  | .nil => []
  | .node v l r => l.inList ++ [v] ++ r.inList

def BT.preList {β : Type} : BT β → List β
  | .nil => []
  | .node v l r => v :: (l.preList ++ r.preList)

def BT.posList {β : Type} : BT β → List β
  | .nil => []
  | .node v l r => l.posList ++ r.posList ++ [v]

/-- The nodes at depth `d`, from left to right. -/
def BT.atDepth {β : Type} : BT β → Nat → List β
  | .nil, _ => []
  | .node v _ _, 0 => [v]
  | .node _ l r, d + 1 => l.atDepth d ++ r.atDepth d

def BT.levels {β : Type} : BT β → Nat
  | .nil => 0
  | .node _ l r => max l.levels r.levels + 1

/-- Level by level. -/
def BT.levelList {β : Type} (t : BT β) : List β := (List.range t.levels).flatMap t.atDepth

/-- The order of a traversal. -/
def order : Kind → BT Nat → List Nat
  | .inOrder, t => t.inList
  | .preOrder, t => t.preList
  | .posOrder, t => t.posList
  | .breadthFirst, t => t.levelList
  | .depthFirst, t => t.preList

/-- The callback only changes values and never stops the traversal. -/
def Gentle (cb : Callback α) : Prop := ∀ tr i w, (∀ op ∈ (cb tr i w).1, Rewrites op) ∧ (cb tr i w).2 = false

end Spec

/-! ### Rewriting keeps the nodes -/

def btSize : BT Nat → Nat
  | .nil => 0
  | .node _ l r => btSize l + btSize r + 1

def rootOf : BT Nat → Ptr
  | .nil => none
  | .node i _ _ => some i

theorem rootOf_skel (t : Tree α) : rootOf (skel t) = ptr t := by cases t <;> rfl

theorem btSize_skel (t : Tree α) : btSize (skel t) = sz t := by
  induction t with
  | nil => rfl
  | node i p v h l r ihl ihr => simp [skel, btSize, sz, ihl, ihr]

/-- The memory is sound and its trees have the nodes `K`. -/
def HasNodes (w : World α) (K : Nat → BT Nat) : Prop := ∃ T, Inv w.s T ∧ ∀ k, skel (T k) = K k

theorem bstep_links (dflt : α) {s s' : St α} {op : BOp α} {o : BOut} (hop : Rewrites (.base op)) (h : bstep dflt s op = .ok (o, s')) :
    SameLinks s.mem s'.mem ∧ s'.roots = s.roots := by
  have key : ∀ k p (f : Nat → Res (BOut × St α)), (∀ i o s', f i = .ok (o, s') → SameLinks s.mem s'.mem ∧ s'.roots = s.roots) →
      ∀ o s', onNode s k p f = .ok (o, s') → SameLinks s.mem s'.mem ∧ s'.roots = s.roots := by
    intro k p f hf o s' h
    unfold onNode at h
    split at h
    · exact hf _ _ _ h
    · cases h; exact ⟨same_refl _, rfl⟩
    · cases h
  have hch : ∀ {s s' : St α} {i : Nat} {f : Cell α → Cell α}, change s i f = .ok s' → s'.roots = s.roots := by
    intro s s' i f h
    unfold change at h
    split at h
    · cases h; rfl
    · cases h
  match op, hop with
  | .setValue k p x, _ =>
    refine key k p _ (fun i o s' h => ?_) _ _ h
    simp only [Res.bind_eq_ok, Res.ok.injEq, Prod.mk.injEq] at h
    obtain ⟨s1, h1, -, rfl⟩ := h
    exact ⟨same_change (by intro c; exact ⟨rfl, rfl⟩) h1, hch h1⟩
  | .swap k p dir, _ =>
    refine key k p _ (fun i o s' h => ?_) _ _ h
    simp only [Res.bind_eq_ok, Res.ok.injEq, Prod.mk.injEq] at h
    obtain ⟨s1, h1, -, rfl⟩ := h
    refine ⟨same_swap h1, ?_⟩
    have hsv : ∀ {a b : Nat} {s' : St α}, swapValues s a b = .ok s' → s'.roots = s.roots := by
      intro a b s' h
      simp only [swapValues, Res.bind_eq_ok] at h
      obtain ⟨c1, -, c2, -, s1, h1, h2⟩ := h
      rw [hch h2, hch h1]
    simp only [swapChild, Res.bind_eq_ok] at h1
    obtain ⟨c, -, h1⟩ := h1
    split at h1
    · exact hsv h1
    · exact hsv h1
    · cases h1; rfl

theorem rewrite_run (dflt : α) {K : Nat → BT Nat} : ∀ (ops : List (MOp α)) {w : World α}, HasNodes w K → (∀ op ∈ ops, Rewrites op) →
    ∃ os w', mrun dflt w ops = .ok (os, w') ∧ HasNodes w' K := by
  intro ops
  induction ops with
  | nil => intro w h _; exact ⟨[], w, rfl, h⟩
  | cons op ops ih =>
    intro w ⟨T, hT, hK⟩ hr
    have hop := hr op (by simp)
    cases op with
    | avl op => exact hop.elim
    | base op =>
      have hsafe : MSafe (.base op) := by cases op <;> first | exact hop.elim | trivial
      obtain ⟨o, w1, T1, e1, i1, -⟩ := mstep_ok dflt hT (.base op) (.inl hsafe)
      have h1 : HasNodes w1 K := by
        refine ⟨T1, i1, fun k => ?_⟩
        simp only [mstep, Res.bind_eq_ok, Prod.exists] at e1
        obtain ⟨o', s', e1, e2⟩ := e1
        simp only [Res.ok.injEq, Prod.mk.injEq] at e2
        obtain ⟨-, rfl⟩ := e2
        obtain ⟨hl, hro⟩ := bstep_links dflt hop e1
        rw [← hK k]
        refine skel_links hl (hT.rep k) (i1.rep k) ?_
        rw [← hT.root k, ← i1.root k, hro]
      obtain ⟨os, w2, e2, h2⟩ := ih h1 fun op' h' => hr op' (by simp [h'])
      exact ⟨o :: os, w2, by simp only [mrun, e1, e2, Res.bind_ok], h2⟩

theorem skel_subAt (q : List Bool) : ∀ t : Tree α, skel (subAt t q) = (skel t).at q := by
  induction q with
  | nil => intro t; cases t <;> rfl
  | cons b q ih =>
    intro t
    cases t with
    | nil => rfl
    | node i p v h l r => cases b <;> exact ih _

theorem HasNodes.cell {w : World α} {K : Nat → BT Nat} (h : HasNodes w K) {k : Nat} {q : List Bool} {i : Nat} {a b : BT Nat}
    (hq : (K k).at q = .node i a b) : ∃ c, cell w.s i = .ok c ∧ c.left = rootOf a ∧ c.right = rootOf b := by
  obtain ⟨T, hT, hK⟩ := h
  rw [← hK k, ← skel_subAt] at hq
  cases ht : subAt (T k) q with
  | nil => rw [ht] at hq; cases hq
  | node j p v hh l r =>
    rw [ht] at hq
    simp only [skel, BT.node.injEq] at hq
    obtain ⟨rfl, rfl, rfl⟩ := hq
    exact ⟨_, hT.at ht, (rootOf_skel l).symm, (rootOf_skel r).symm⟩

theorem visit_gentle (dflt : α) {cb : Callback α} (hcb : Gentle cb) {w : World α} {K : Nat → BT Nat} (h : HasNodes w K) {k : Nat} {q : List Bool}
    {i : Nat} {a b : BT Nat} (hq : (K k).at q = .node i a b) (tr : List Nat) :
    ∃ w', visit dflt cb w tr i = .ok (false, tr ++ [i], w') ∧ HasNodes w' K := by
  obtain ⟨c, hc, -⟩ := h.cell hq
  obtain ⟨os, w', e, h'⟩ := rewrite_run dflt (cb tr i w).1 h (hcb tr i w).1
  exact ⟨w', by simp only [visit, hc, Run.of_ok, Run.bind_ok, e, (hcb tr i w).2], h'⟩

theorem bt_at_append (q : List Bool) : ∀ (r : List Bool) (t : BT Nat), t.at (q ++ r) = (t.at q).at r := by
  induction q with
  | nil => intro r t; cases t <;> rfl
  | cons b q ih =>
    intro r t
    cases t with
    | nil => cases r <;> rfl
    | node => exact ih r _

theorem bt_at_nil (t : BT Nat) : t.at [] = t := by cases t <;> rfl

theorem child_at {K : Nat → BT Nat} {k : Nat} {q : List Bool} {i : Nat} {a b : BT Nat} (hq : (K k).at q = .node i a b) :
    (K k).at (q ++ [false]) = a ∧ (K k).at (q ++ [true]) = b := by
  rw [bt_at_append, bt_at_append, hq]
  simp [BT.at]

/-- The traversal of a child, if there is one. -/
theorem child_gentle (f : World α → List Nat → Nat → Run (Nat × List Nat × World α)) (g : BT Nat → List Nat) (hg : g .nil = []) {fuel : Nat}
    {K : Nat → BT Nat} {k : Nat}
    (ih : ∀ {w : World α} {q : List Bool} {i : Nat} {a b : BT Nat} (tr : List Nat), HasNodes w K → (K k).at q = .node i a b →
      btSize (.node i a b) < fuel → ∃ w', f w tr i = .ok (btSize (.node i a b), tr ++ g (.node i a b), w') ∧ HasNodes w' K)
    {w : World α} {q : List Bool} {t : BT Nat} (tr : List Nat) (h : HasNodes w K) (hq : (K k).at q = t) (hf : btSize t < fuel) :
    ∃ w', ((match rootOf t with
      | some j => f w tr j
      | none => .ok (0, tr, w)) : Run _) = .ok (btSize t, tr ++ g t, w') ∧ HasNodes w' K := by
  cases t with
  | nil => exact ⟨w, by simp [rootOf, btSize, hg], h⟩
  | node i a b => exact ih tr h hq hf

theorem Run.bind_of {β γ : Type} {r : Run β} {b : β} (h : r = .ok b) (f : β → Run γ) : (r >>= f) = f b := by rw [h]; rfl

theorem inOrder_gentle (dflt : α) {cb : Callback α} (hcb : Gentle cb) {K : Nat → BT Nat} (k : Nat) : ∀ (fuel : Nat) {w : World α}
    {q : List Bool} {i : Nat} {a b : BT Nat} (tr : List Nat), HasNodes w K → (K k).at q = .node i a b → btSize (.node i a b) < fuel →
    ∃ w', inOrder dflt cb fuel w tr i = .ok (btSize (.node i a b), tr ++ (BT.node i a b).inList, w') ∧ HasNodes w' K := by
  intro fuel
  induction fuel with
  | zero => intro w q i a b tr _ _ h; exact absurd h (Nat.not_lt_zero _)
  | succ fuel ih =>
    intro w q i a b tr h hq hf
    simp only [btSize] at hf
    obtain ⟨qa, qb⟩ := child_at hq
    obtain ⟨c, hc, hcl, -⟩ := h.cell hq
    obtain ⟨w1, e1, h1⟩ := child_gentle _ BT.inList rfl ih tr h qa (by omega)
    obtain ⟨w2, e2, h2⟩ := visit_gentle dflt hcb h1 hq (tr ++ a.inList)
    obtain ⟨c2, hc2, -, hcr⟩ := h2.cell hq
    obtain ⟨w3, e3, h3⟩ := child_gentle _ BT.inList rfl ih (tr ++ a.inList ++ [i]) h2 qb (by omega)
    refine ⟨w3, ?_, h3⟩
    unfold inOrder
    simp only [hc, Run.of_ok, Run.bind_ok, hcl]
    refine (Run.bind_of e1 _).trans ?_
    simp only [e2, Run.bind_ok, Bool.false_eq_true, if_false, hc2, Run.of_ok, hcr]
    refine (Run.bind_of e3 _).trans ?_
    simp [btSize, BT.inList]
    omega

theorem preOrder_gentle (dflt : α) {cb : Callback α} (hcb : Gentle cb) {K : Nat → BT Nat} (k : Nat) : ∀ (fuel : Nat) {w : World α}
    {q : List Bool} {i : Nat} {a b : BT Nat} (tr : List Nat), HasNodes w K → (K k).at q = .node i a b → btSize (.node i a b) < fuel →
    ∃ w', preOrder dflt cb fuel w tr i = .ok (btSize (.node i a b), tr ++ (BT.node i a b).preList, w') ∧ HasNodes w' K := by
  intro fuel
  induction fuel with
  | zero => intro w q i a b tr _ _ h; exact absurd h (Nat.not_lt_zero _)
  | succ fuel ih =>
    intro w q i a b tr h hq hf
    simp only [btSize] at hf
    obtain ⟨qa, qb⟩ := child_at hq
    obtain ⟨w1, e1, h1⟩ := visit_gentle dflt hcb h hq tr
    obtain ⟨c, hc, hcl, -⟩ := h1.cell hq
    obtain ⟨w2, e2, h2⟩ := child_gentle _ BT.preList rfl ih (tr ++ [i]) h1 qa (by omega)
    obtain ⟨c2, hc2, -, hcr⟩ := h2.cell hq
    obtain ⟨w3, e3, h3⟩ := child_gentle _ BT.preList rfl ih (tr ++ [i] ++ a.preList) h2 qb (by omega)
    refine ⟨w3, ?_, h3⟩
    unfold preOrder
    simp only [e1, Run.bind_ok, Bool.false_eq_true, if_false, hc, Run.of_ok, hcl]
    refine (Run.bind_of e2 _).trans ?_
    simp only [hc2, Run.of_ok, Run.bind_ok, hcr]
    refine (Run.bind_of e3 _).trans ?_
    simp [btSize, BT.preList]
    omega

theorem posOrder_gentle (dflt : α) {cb : Callback α} (hcb : Gentle cb) {K : Nat → BT Nat} (k : Nat) : ∀ (fuel : Nat) {w : World α}
    {q : List Bool} {i : Nat} {a b : BT Nat} (tr : List Nat), HasNodes w K → (K k).at q = .node i a b → btSize (.node i a b) < fuel →
    ∃ w', posOrder dflt cb fuel w tr i = .ok (btSize (.node i a b), tr ++ (BT.node i a b).posList, w') ∧ HasNodes w' K := by
  intro fuel
  induction fuel with
  | zero => intro w q i a b tr _ _ h; exact absurd h (Nat.not_lt_zero _)
  | succ fuel ih =>
    intro w q i a b tr h hq hf
    simp only [btSize] at hf
    obtain ⟨qa, qb⟩ := child_at hq
    obtain ⟨c, hc, hcl, -⟩ := h.cell hq
    obtain ⟨w1, e1, h1⟩ := child_gentle _ BT.posList rfl ih tr h qa (by omega)
    obtain ⟨c2, hc2, -, hcr⟩ := h1.cell hq
    obtain ⟨w2, e2, h2⟩ := child_gentle _ BT.posList rfl ih (tr ++ a.posList) h1 qb (by omega)
    obtain ⟨w3, e3, h3⟩ := visit_gentle dflt hcb h2 hq (tr ++ a.posList ++ b.posList)
    refine ⟨w3, ?_, h3⟩
    unfold posOrder
    simp only [hc, Run.of_ok, Run.bind_ok, hcl]
    refine (Run.bind_of e1 _).trans ?_
    simp only [hc2, Run.of_ok, Run.bind_ok, hcr]
    refine (Run.bind_of e2 _).trans ?_
    simp only [e3, Run.bind_ok]
    simp [btSize, BT.posList]

/-! ### The searches -/

def btKids : BT Nat → List (BT Nat)
  | .nil => []
  | .node _ l r => [l, r].filter fun t => t ≠ .nil

/-- The visits of a search with these subtrees pending. -/
inductive Queue (deep : Bool) : List (BT Nat) → List Nat → Prop
  | nil : Queue deep [] []
  | node {i : Nat} {l r : BT Nat} {ts : List (BT Nat)} {tr : List Nat} :
      Queue deep (if deep then btKids (.node i l r) ++ ts else ts ++ btKids (.node i l r)) tr → Queue deep (.node i l r :: ts) (i :: tr)

theorem kids_roots {c : Cell α} {i : Nat} {a b : BT Nat} (h1 : c.left = rootOf a) (h2 : c.right = rootOf b) :
    (kids c).map some = (btKids (.node i a b)).map rootOf := by
  cases a <;> cases b <;> simp [kids, h1, h2, rootOf, btKids]

theorem btKids_size (i : Nat) (a b : BT Nat) : ((btKids (.node i a b)).map btSize).sum = btSize a + btSize b := by
  cases a <;> cases b <;> simp [btKids, btSize]

theorem search_gentle (dflt : α) {cb : Callback α} (hcb : Gentle cb) (deep : Bool) {K : Nat → BT Nat} (k : Nat) : ∀ (fuel : Nat) {w : World α}
    {qs : List Nat} {ts : List (BT Nat)} (tr : List Nat), HasNodes w K → qs.map some = ts.map rootOf → (∀ t ∈ ts, ∃ q, (K k).at q = t) →
    (ts.map btSize).sum < fuel →
    ∃ w' add, search dflt cb deep fuel w tr qs = .ok ((ts.map btSize).sum, tr ++ add, w') ∧ HasNodes w' K ∧ Queue deep ts add := by
  intro fuel
  induction fuel with
  | zero => intro w qs ts tr _ _ _ h; exact absurd h (Nat.not_lt_zero _)
  | succ fuel ih =>
    intro w qs ts tr h hr hq hf
    cases ts with
    | nil =>
      cases qs with
      | nil => exact ⟨w, [], by simp [search], h, .nil⟩
      | cons => cases hr
    | cons t ts =>
      cases qs with
      | nil => cases hr
      | cons i qs =>
        simp only [List.map_cons, List.cons.injEq] at hr
        obtain ⟨hr1, hr2⟩ := hr
        cases t with
        | nil => cases hr1
        | node j a b =>
          simp only [rootOf, Option.some.injEq] at hr1
          subst hr1
          obtain ⟨q, hq0⟩ := hq (.node i a b) (by simp)
          obtain ⟨qa, qb⟩ := child_at hq0
          obtain ⟨w1, e1, h1⟩ := visit_gentle dflt hcb h hq0 tr
          obtain ⟨c, hc, hl, hrr⟩ := h1.cell hq0
          have hk := kids_roots (i := i) hl hrr
          have hz := btKids_size i a b
          simp only [List.map_cons, List.sum_cons, btSize] at hf
          have hkids : ∀ t ∈ btKids (.node i a b), ∃ q, (K k).at q = t := fun t ht => by
            simp only [btKids, List.mem_filter, List.mem_cons, List.not_mem_nil, or_false] at ht
            rcases ht.1 with rfl | rfl
            · exact ⟨_, qa⟩
            · exact ⟨_, qb⟩
          have hrest : ∀ t ∈ ts, ∃ q, (K k).at q = t := fun t ht => hq t (by simp [ht])
          obtain ⟨w2, add, e2, h2, q2⟩ := ih (qs := if deep then kids c ++ qs else qs ++ kids c)
            (ts := if deep then btKids (.node i a b) ++ ts else ts ++ btKids (.node i a b)) (tr ++ [i]) h1
            (by cases deep <;> simp only [Bool.false_eq_true, if_true, if_false, List.map_append, hk, hr2])
            (by
              intro t ht
              cases deep with
              | true => exact (List.mem_append.1 ht).elim (hkids t) (hrest t)
              | false => exact (List.mem_append.1 ht).elim (hrest t) (hkids t))
            (by cases deep <;> simp only [Bool.false_eq_true, if_true, if_false, List.map_append, List.sum_append, hz] <;> omega)
          refine ⟨w2, i :: add, ?_, h2, .node q2⟩
          simp only [search, e1, Run.bind_ok, hc, Run.of_ok, Bool.false_eq_true, if_false, e2]
          have : ((if deep = true then btKids (.node i a b) ++ ts else ts ++ btKids (.node i a b)).map btSize).sum =
              btSize a + btSize b + (ts.map btSize).sum := by
            cases deep <;> simp only [Bool.false_eq_true, if_true, if_false, List.map_append, List.sum_append, hz]
            omega
          rw [this]
          simp [btSize]
          omega

/-- Depth first is the order of `pre_order`. -/
theorem queue_deep {ts : List (BT Nat)} {tr : List Nat} (h : Queue true ts tr) : tr = ts.flatMap BT.preList := by
  induction h with
  | nil => rfl
  | @node i l r ts tr _ ih =>
    rw [ih]
    cases l <;> cases r <;> simp [btKids, BT.preList]

/-- A level after the other. -/
theorem queue_level : ∀ (ts : List (BT Nat)) {us : List (BT Nat)} {tr : List Nat}, Queue false (ts ++ us) tr →
    ∃ tr', tr = ts.flatMap (fun t => t.atDepth 0) ++ tr' ∧ Queue false (us ++ ts.flatMap btKids) tr' := by
  intro ts
  induction ts with
  | nil => intro us tr h; exact ⟨tr, rfl, by simpa using h⟩
  | cons t ts ih =>
    intro us tr h
    cases h with
    | @node i l r _ tr h =>
      have h : Queue false (ts ++ (us ++ btKids (.node i l r))) tr := by simpa using h
      obtain ⟨tr', e, h'⟩ := ih h
      exact ⟨tr', by simp [e, BT.atDepth], by simpa [List.append_assoc] using h'⟩

theorem kids_depth (t : BT Nat) (d : Nat) : (btKids t).flatMap (fun t => t.atDepth d) = t.atDepth (d + 1) := by
  cases t with
  | nil => rfl
  | node i l r => cases l <;> cases r <;> simp [btKids, BT.atDepth]

theorem kids_levels {t u : BT Nat} (h : u ∈ btKids t) : u.levels < t.levels := by
  cases t with
  | nil => cases h
  | node i l r =>
    simp only [btKids, List.mem_filter, List.mem_cons, List.not_mem_nil, or_false] at h
    rcases h.1 with rfl | rfl <;> simp only [BT.levels] <;> omega

theorem queue_wide : ∀ (n : Nat) {ts : List (BT Nat)} {tr : List Nat}, (∀ t ∈ ts, t.levels ≤ n) → Queue false ts tr →
    tr = (List.range n).flatMap fun d => ts.flatMap fun t => t.atDepth d := by
  intro n
  induction n with
  | zero =>
    intro ts tr hn h
    cases h with
    | nil => rfl
    | @node i l r => have := hn (.node i l r) (by simp); simp [BT.levels] at this
  | succ n ih =>
    intro ts tr hn h
    obtain ⟨tr', e, h'⟩ := queue_level ts (us := []) (by simpa using h)
    rw [List.nil_append] at h'
    have := ih (fun u hu => by
      obtain ⟨t, ht, hu⟩ := List.mem_flatMap.1 hu
      have h1 := kids_levels hu
      have h2 := hn t ht
      omega) h'
    rw [e, this, List.range_succ_eq_map, List.flatMap_cons, List.flatMap_map]
    congr 1
    apply List.flatMap_congr
    intro d _
    rw [List.flatMap_assoc]
    exact List.flatMap_congr fun t _ => kids_depth t d

theorem nodes_skel {s : St α} {t : Tree α} (h : Rep s.mem t) : Nodes s (ptr t) (skel t) := by
  induction t with
  | nil => exact .null
  | node i p v hh l r ihl ihr => exact .node h.1 (ihl h.2.1) (ihr h.2.2)

theorem nodes_unique {s : St α} {p : Ptr} {t : BT Nat} (h : Nodes s p t) : ∀ {u : BT Nat}, Nodes s p u → t = u := by
  induction h with
  | null => intro u hu; cases hu; rfl
  | node hc _ _ ihl ihr =>
    intro u hu
    cases hu with
    | node hc' hl hr =>
      rw [hc] at hc'
      cases hc'
      rw [ihl hl, ihr hr]

theorem order_length (kind : Kind) (t : BT Nat) : kind ≠ .breadthFirst → (order kind t).length = btSize t := by
  intro hk
  induction t with
  | nil => cases kind <;> rfl
  | node i l r ihl ihr =>
    cases kind <;> simp only [order, BT.inList, BT.preList, BT.posList, btSize, List.length_append, List.length_cons, List.length_nil] at ihl ihr ⊢ <;>
      first | omega | exact absurd rfl hk

/-- C139: a traversal whose callback only changes values (`set_value`, `swap`), of any nodes of any trees, and never stops it, ends,
visits every node of the tree exactly once, in the order of the traversal, returns their number, and leaves the nodes and the shape
of all trees. -/
theorem C139_order {dflt : α} {cb : Callback α} (hcb : Gentle cb) (kind : Kind) {ops : List (MOp α)} {outs : List MOut} {w : World α}
    (hw : mrun dflt World.init ops = .ok (outs, w)) (k : Nat) (t : BT Nat) (ht : Nodes w.s (w.s.roots k) t) :
    ∃ fuel w', traverse dflt cb kind fuel w k = .ok ((order kind t).length, order kind t, w') ∧
      ∀ j u, Nodes w.s (w.s.roots j) u → Nodes w'.s (w'.s.roots j) u := by
  obtain ⟨T, hT⟩ := mrun_inv' hw
  have hK : HasNodes w (fun k => skel (T k)) := ⟨T, hT, fun _ => rfl⟩
  have hnode : ∀ j, Nodes w.s (w.s.roots j) (skel (T j)) := fun j => by rw [hT.root j]; exact nodes_skel (hT.rep j)
  have hafter : ∀ w' : World α, HasNodes w' (fun k => skel (T k)) → ∀ j u, Nodes w.s (w.s.roots j) u → Nodes w'.s (w'.s.roots j) u := by
    rintro w' ⟨T', hT', hs⟩ j u hu
    have hs : skel (T' j) = skel (T j) := hs j
    rw [nodes_unique hu (hnode j), ← hs, hT'.root j]
    exact nodes_skel (hT'.rep j)
  have htt : t = skel (T k) := nodes_unique ht (hnode k)
  refine ⟨w.s.fuel, ?_⟩
  unfold traverse
  have hroot : w.s.roots k = rootOf t := by rw [htt, rootOf_skel, hT.root k]
  cases t with
  | nil =>
    rw [hroot]
    exact ⟨w, by cases kind <;> rfl, hafter w hK⟩
  | node i a b =>
    rw [hroot]
    simp only [rootOf]
    have hq : ((fun k => skel (T k)) k).at [] = .node i a b := by rw [bt_at_nil]; exact htt.symm
    have hf : btSize (.node i a b) < w.s.fuel := by
      have := hT.fuel k []
      rw [subAt_nil, ← btSize_skel, ← htt] at this
      exact this
    have hsearch : ∀ deep, ∃ w' add, search dflt cb deep w.s.fuel w [] [i] = .ok (btSize (.node i a b), add, w') ∧
        HasNodes w' (fun k => skel (T k)) ∧ Queue deep [.node i a b] add := fun deep => by
      obtain ⟨w', add, e, h', q'⟩ := search_gentle dflt hcb deep k w.s.fuel (qs := [i]) (ts := [.node i a b]) [] hK rfl
        (by simpa using ⟨[], hq⟩) (by simpa using hf)
      exact ⟨w', add, by simpa using e, h', q'⟩
    cases kind with
    | inOrder =>
      obtain ⟨w', e, h'⟩ := inOrder_gentle dflt hcb k w.s.fuel [] hK hq hf
      exact ⟨w', by rw [order_length _ _ (by simp)]; exact e, hafter w' h'⟩
    | preOrder =>
      obtain ⟨w', e, h'⟩ := preOrder_gentle dflt hcb k w.s.fuel [] hK hq hf
      exact ⟨w', by rw [order_length _ _ (by simp)]; exact e, hafter w' h'⟩
    | posOrder =>
      obtain ⟨w', e, h'⟩ := posOrder_gentle dflt hcb k w.s.fuel [] hK hq hf
      exact ⟨w', by rw [order_length _ _ (by simp)]; exact e, hafter w' h'⟩
    | depthFirst =>
      obtain ⟨w', add, e, h', q'⟩ := hsearch true
      have := queue_deep q'
      rw [List.flatMap_singleton] at this
      subst this
      exact ⟨w', by rw [order_length _ _ (by simp)]; exact e, hafter w' h'⟩
    | breadthFirst =>
      obtain ⟨w', add, e, h', q'⟩ := hsearch false
      have hwide := queue_wide (BT.node i a b).levels (by simp) q'
      have hadd : add = (BT.node i a b).levelList := by
        rw [hwide]
        simp [BT.levelList]
      have hlen : add.length = btSize (.node i a b) := by
        clear hadd hwide e h'
        have : ∀ {ts : List (BT Nat)} {tr : List Nat}, Queue false ts tr → tr.length = (ts.map btSize).sum := by
          intro ts tr h
          induction h with
          | nil => rfl
          | @node i l r ts tr _ ih =>
            simp only [Bool.false_eq_true, if_false, List.map_append, List.sum_append, btKids_size] at ih
            simp [btSize, ih]
            omega
        simpa using this q'
      refine ⟨w', ?_, hafter w' h'⟩
      simp only [order, ← hadd, hlen]
      exact e

/-- A callback that writes the number of the visit into each node, for all five traversals. -/
def numberThem (k : Nat) (paths : List (List Bool)) : Callback Nat := fun tr _ _ =>
  ([.base (.setValue k (paths.getD tr.length []) tr.length)], false)

example : Gentle (numberThem 0 [[], [false]]) := fun _ _ _ => ⟨fun op ho => by
  rw [List.mem_singleton.1 ho]; trivial, rfl⟩

set_option synthInstance.maxSize 1000 in
example : walkDump (runWalk (numberThem 0 [[], [false], [true], [false, true]]) .breadthFirst 9
    [.base (.addRoot 0 9), .base (.addRight 0 [] 8), .base (.addLeft 0 [] 7), .base (.addRight 0 [false] 6)] 0) =
    some (4, [0, 2, 1, 3], [some (0, some 2, some 1), some (2, none, none), some (1, none, some 3), some (3, none, none)]) := by
  decide +kernel

example : order .breadthFirst (.node 0 (.node 2 .nil (.node 3 .nil .nil)) (.node 1 .nil .nil)) = [0, 2, 1, 3] := by decide +kernel

end Verif.Mem
