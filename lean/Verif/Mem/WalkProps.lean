import Verif.Mem.Walk

/-! C138 and C139: traversals whose callback changes the trees. -/

namespace Verif.Mem
open Avl (Tree)
open Spec
set_option linter.unusedSectionVars false
variable {α : Type} [LinearOrder α]

namespace Spec

/-- The operation is on a node at or below the path `q` of tree `k` and adds, deletes or changes only below that node. -/
def OpBelow (k : Nat) (q : List Bool) : MOp α → Prop
  | .base (.addLeft j p _) | .base (.addRight j p _) | .base (.deleteChild j p _) | .base (.swap j p _) | .base (.setValue j p _)
  | .base (.clearNode j p) => j = k ∧ q <+: p
  | _ => False

/-- The operation adds no node. -/
def AddsNone : MOp α → Prop
  | .base (.addLeft _ _ _) | .base (.addRight _ _ _) => False
  | _ => True

/-- The operation changes values only, of any node of any tree. -/
def Rewrites : MOp α → Prop
  | .base (.setValue _ _ _) | .base (.swap _ _ _) => True
  | _ => False

/-- The callback changes nothing but what is at or below the visited node. -/
def Local (cb : Callback α) : Prop :=
  ∀ tr i w k q, follow w.s (w.s.roots k) q = some i → ∀ op ∈ (cb tr i w).1, OpBelow k q op

/-- As `Local`, but the last operation may delete the visited node through its parent. -/
def LocalDelete (cb : Callback α) : Prop :=
  ∀ tr i w k q, follow w.s (w.s.roots k) q = some i → ∃ ops last, (cb tr i w).1 = ops ++ last ∧ (∀ op ∈ ops, OpBelow k q op) ∧
    (last = [] ∨ ∃ q' b, q = q' ++ [b] ∧ last = [.base (.deleteChild k q' (if b then 1 else 0))])

end Spec

/-! ### Results -/

/-- `long` only if `L`, no UB, and `P` at the end. -/
def Run.Sat {β : Type} (r : Run β) (L : Prop) (P : β → Prop) : Prop :=
  match r with
  | .ok b => P b
  | .ub => False
  | .long => L

theorem Run.Sat.bind {β γ : Type} {r : Run β} {f : β → Run γ} {L : Prop} {P : β → Prop} {Q : γ → Prop} (h : r.Sat L P)
    (hf : ∀ b, P b → (f b).Sat L Q) : (r >>= f).Sat L Q := by
  cases r with
  | ok b => exact hf b h
  | ub => exact h
  | long => exact h

theorem Run.Sat.mono {β : Type} {r : Run β} {L L' : Prop} {P Q : β → Prop} (h : r.Sat L P) (hL : L → L') (hP : ∀ b, P b → Q b) :
    r.Sat L' Q := by
  cases r with
  | ok b => exact hP b h
  | ub => exact h
  | long => exact hL h

@[simp] theorem Run.of_ok {β : Type} (b : β) : Run.of (.ok b) = .ok b := rfl
@[simp] theorem Run.bind_ok {β γ : Type} (b : β) (f : β → Run γ) : ((Run.ok b : Run β) >>= f) = f b := rfl
@[simp] theorem Run.bind_ub {β γ : Type} (f : β → Run γ) : ((Run.ub : Run β) >>= f) = .ub := rfl
@[simp] theorem Run.bind_long {β γ : Type} (f : β → Run γ) : ((Run.long : Run β) >>= f) = .long := rfl

/-! ### Paths -/

theorem subAt_nil (t : Tree α) : subAt t [] = t := by cases t <;> rfl

theorem putAt_nil (t u : Tree α) : putAt t [] u = u := by cases t <;> rfl

theorem putAt_append (q : List Bool) : ∀ (r : List Bool) (t u : Tree α), putAt t (q ++ r) u = putAt t q (putAt (subAt t q) r u) := by
  induction q with
  | nil => intro r t u; rw [putAt_nil, subAt_nil]; rfl
  | cons b q ih =>
    intro r t u
    cases t with
    | nil => rfl
    | node i p v h l r' =>
      have h1 := ih r l u
      have h2 := ih r r' u
      cases b with
      | true => simp only [List.cons_append, putAt, subAt, if_true, h2]
      | false => simp only [List.cons_append, putAt, subAt, Bool.false_eq_true, if_false, h1]

theorem putAt_self (q : List Bool) : ∀ t : Tree α, putAt t q (subAt t q) = t := by
  induction q with
  | nil => intro t; rw [putAt_nil, subAt_nil]
  | cons b q ih =>
    intro t
    cases t with
    | nil => rfl
    | node i p v h l r => cases b <;> simp [putAt, subAt, ih]

theorem putAt_putAt (q : List Bool) : ∀ t u u' : Tree α, putAt (putAt t q u) q u' = putAt t q u' := by
  induction q with
  | nil => intro t u u'; simp only [putAt_nil]
  | cons b q ih =>
    intro t u u'
    cases t with
    | nil => rfl
    | node i p v h l r => cases b <;> simp only [putAt, ih]

theorem subAt_putAt_self {q : List Bool} {t : Tree α} (u : Tree α) (h : subAt t q ≠ .nil) : subAt (putAt t q u) q = u := by
  have := subAt_putAt_prefix q [] t u h
  rwa [List.append_nil, putAt_nil] at this

theorem upd_eq (T : Nat → Tree α) (k : Nat) : upd T k (T k) = T := by
  funext j
  by_cases hj : j = k <;> simp [upd, hj]

/-! ### Pruned trees -/

/-- The first tree comes from the second by deleting subtrees and changing stored fields. -/
inductive Prune : Tree α → Tree α → Prop where
  | nil (t : Tree α) : Prune .nil t
  | node {i : Nat} {p p' : Ptr} {v v' : α} {h h' : Nat} {l l' r r' : Tree α} :
      Prune l' l → Prune r' r → Prune (.node i p' v' h' l' r') (.node i p v h l r)

theorem Prune.refl (t : Tree α) : Prune t t := by
  induction t with
  | nil => exact .nil _
  | node i p v h l r ihl ihr => exact .node ihl ihr

theorem Prune.trans {a b : Tree α} (h : Prune a b) : ∀ {c : Tree α}, Prune b c → Prune a c := by
  induction h with
  | nil t => intro c _; exact .nil c
  | node h1 h2 ih1 ih2 =>
    intro c hc
    cases hc with
    | node h3 h4 => exact .node (ih1 h3) (ih2 h4)

theorem Prune.put (q : List Bool) : ∀ {t u : Tree α}, Prune u (subAt t q) → Prune (putAt t q u) t := by
  induction q with
  | nil => intro t u h; rw [putAt_nil]; rwa [subAt_nil] at h
  | cons b q ih =>
    intro t u h
    cases t with
    | nil => exact .nil _
    | node i p v hh l r =>
      cases b with
      | true => exact .node (.refl l) (ih h)
      | false => exact .node (ih h) (.refl r)

theorem Prune.ids {u t : Tree α} (h : Prune u t) : ∀ i ∈ ids u, i ∈ ids t := by
  induction h with
  | nil t => intro i hi; cases hi
  | node h1 h2 ih1 ih2 =>
    intro i hi
    simp only [Mem.ids, List.mem_cons, List.mem_append] at hi ⊢
    rcases hi with hi | hi | hi
    · exact .inl hi
    · exact .inr (.inl (ih1 i hi))
    · exact .inr (.inr (ih2 i hi))

theorem Prune.sz {u t : Tree α} (h : Prune u t) : sz u ≤ sz t := by
  induction h with
  | nil t => exact Nat.zero_le _
  | node h1 h2 ih1 ih2 => simp only [Mem.sz]; omega

/-- Nodes and shape. -/
def skel : Tree α → BT Nat
  | .nil => .nil
  | .node i _ _ _ l r => .node i (skel l) (skel r)

theorem skel_prune : ∀ {t u : Tree α}, skel u = skel t → Prune u t := by
  intro t
  induction t with
  | nil => intro u h; cases u with
    | nil => exact .nil _
    | node => cases h
  | node i p v hh l r ihl ihr =>
    intro u h
    cases u with
    | nil => cases h
    | node i' p' v' h' l' r' =>
      simp only [skel, BT.node.injEq] at h
      obtain ⟨rfl, h1, h2⟩ := h
      exact .node (ihl h1) (ihr h2)

/-- No link changes. -/
def SameLinks (m m' : Nat → Option (Cell α)) : Prop :=
  ∀ j, (m j).map (fun c => (c.left, c.right)) = (m' j).map (fun c => (c.left, c.right))

theorem skel_links {m m' : Nat → Option (Cell α)} (hm : SameLinks m m') : ∀ {t u : Tree α}, Rep m t → Rep m' u → ptr u = ptr t →
    skel u = skel t := by
  intro t
  induction t with
  | nil => intro u _ _ h; rw [ptr_none.1 h]
  | node i p v hh l r ihl ihr =>
    intro u h1 h2 h
    cases u with
    | nil => cases h
    | node i' p' v' h' l' r' =>
      simp only [ptr_node, Option.some.injEq] at h
      subst h
      have := hm i'
      rw [h1.1, h2.1] at this
      simp only [Option.map_some, Option.some.injEq, Prod.mk.injEq] at this
      simp only [skel, BT.node.injEq, true_and]
      exact ⟨ihl h1.2.1 h2.2.1 this.1.symm, ihr h1.2.2 h2.2.2 this.2.symm⟩

theorem same_refl (m : Nat → Option (Cell α)) : SameLinks m m := fun _ => rfl

theorem same_change {s s' : St α} {i : Nat} {f : Cell α → Cell α} (hf : ∀ c, (f c).left = c.left ∧ (f c).right = c.right)
    (h : change s i f = .ok s') : SameLinks s.mem s'.mem := by
  unfold change at h
  cases hi : s.mem i with
  | none => rw [hi] at h; cases h
  | some c =>
    rw [hi] at h
    simp only [Res.ok.injEq] at h
    subst h
    intro j
    by_cases hj : j = i
    · subst hj
      rw [mem_set_self, hi]
      simp only [Option.map_some, hf]
    · rw [mem_set_ne _ hj]

theorem SameLinks.trans {a b c : Nat → Option (Cell α)} (h1 : SameLinks a b) (h2 : SameLinks b c) : SameLinks a c :=
  fun j => (h1 j).trans (h2 j)

theorem same_swap {s s' : St α} {i dir : Nat} (h : swapChild s i dir = .ok s') : SameLinks s.mem s'.mem := by
  have key : ∀ a b s', swapValues s a b = .ok s' → SameLinks s.mem s'.mem := by
    intro a b s' h
    simp only [swapValues, Res.bind_eq_ok] at h
    obtain ⟨c1, -, c2, -, s1, h1, h2⟩ := h
    exact (same_change (by intro c; exact ⟨rfl, rfl⟩) h1).trans (same_change (f := fun c => { c with val := c1.val }) (by intro c; exact ⟨rfl, rfl⟩) h2)
  simp only [swapChild, Res.bind_eq_ok] at h
  obtain ⟨c, -, h⟩ := h
  split at h
  · exact key _ _ _ h
  · exact key _ _ _ h
  · cases h; exact same_refl _

/-! ### Changes below a node -/

/-- Only the subtree at `q` of tree `k` changed, and its top stayed. -/
def Under (S : Prop) (k : Nat) (q : List Bool) (T T' : Nat → Tree α) : Prop :=
  ∃ u, T' = upd T k (putAt (T k) q u) ∧ ptr u = ptr (subAt (T k) q) ∧ (S → Prune u (subAt (T k) q))

theorem Under.refl (S : Prop) (k : Nat) (q : List Bool) (T : Nat → Tree α) : Under S k q T T :=
  ⟨subAt (T k) q, by rw [putAt_self, upd_eq], rfl, fun _ => .refl _⟩

theorem Under.mono {S : Prop} {k : Nat} {q : List Bool} {r : List Bool} {T T' : Nat → Tree α} (h : Under S k (q ++ r) T T') :
    Under S k q T T' := by
  obtain ⟨u, h1, h2, h3⟩ := h
  rw [putAt_append] at h1
  rw [subAt_append] at h2 h3
  exact ⟨_, h1, ptr_putAt r h2, fun hs => .put r (h3 hs)⟩

theorem Under.weak {S S' : Prop} {k : Nat} {q : List Bool} {T T' : Nat → Tree α} (h : Under S k q T T') (hs : S' → S) :
    Under S' k q T T' := by
  obtain ⟨u, h1, h2, h3⟩ := h
  exact ⟨u, h1, h2, fun h => h3 (hs h)⟩

theorem Under.sub {S : Prop} {k : Nat} {q : List Bool} {T T' : Nat → Tree α} (h : Under S k q T T') (hne : subAt (T k) q ≠ .nil) :
    ptr (subAt (T' k) q) = ptr (subAt (T k) q) ∧ (S → Prune (subAt (T' k) q) (subAt (T k) q)) := by
  obtain ⟨u, rfl, h2, h3⟩ := h
  rw [upd_self, subAt_putAt_self u hne]
  exact ⟨h2, h3⟩

theorem ptr_ne {t : Tree α} {i : Nat} (h : ptr t = some i) : t ≠ .nil := by rintro rfl; cases h

theorem Under.trans {S : Prop} {k : Nat} {q : List Bool} {T T1 T2 : Nat → Tree α} (h1 : Under S k q T T1) (h2 : Under S k q T1 T2)
    (hne : subAt (T k) q ≠ .nil) : Under S k q T T2 := by
  obtain ⟨u, rfl, a2, a3⟩ := h1
  obtain ⟨u', rfl, b2, b3⟩ := h2
  rw [upd_self, subAt_putAt_self u hne] at b2 b3
  refine ⟨u', ?_, b2.trans a2, fun hs => (b3 hs).trans (a3 hs)⟩
  rw [upd_self, putAt_putAt, upd_upd]

theorem Under.other {S : Prop} {k : Nat} {q q' : List Bool} {T T' : Nat → Tree α} (h : Under S k q T T') (h1 : ¬ q <+: q')
    (h2 : ¬ q' <+: q) : subAt (T' k) q' = subAt (T k) q' := by
  obtain ⟨u, rfl, -⟩ := h
  rw [upd_self, subAt_putAt_sep q h1 h2]

/-- An operation below `q` changes only what is there. -/
theorem below_step (dflt : α) {w : World α} {T : Nat → Tree α} (h : Inv w.s T) {k : Nat} {q : List Bool} {op : MOp α}
    (hb : OpBelow k q op) : ∃ o w' T', mstep dflt w op = .ok (o, w') ∧ Inv w'.s T' ∧ Under (AddsNone op) k q T T' := by
  have key : ∀ (bop : BOp α) (p : List Bool) (f : Nat → Res (BOut × St α)), q <+: p → op = .base bop →
      bstep dflt w.s bop = onNode w.s k p f →
      (∀ i pp v hh l r, subAt (T k) p = .node i pp v hh l r → Rep w.s.mem (.node i pp v hh l r) → (ids (.node i pp v hh l r)).Nodup →
        (ids (.node i pp v hh l r)).length ≤ w.s.fuel →
        ∃ o s' u, f i = .ok (o, s') ∧ Loc w.s s' (.node i pp v hh l r) u ∧ (AddsNone op → Prune u (.node i pp v hh l r))) →
      ∃ o w' T', mstep dflt w op = .ok (o, w') ∧ Inv w'.s T' ∧ Under (AddsNone op) k q T T' := by
    rintro bop p f ⟨r, rfl⟩ hop he hf
    rw [hop]
    rw [onNode_rep h] at he
    cases ht : subAt (T k) (q ++ r) with
    | nil =>
      rw [ht] at he
      exact ⟨.base .thrown, w, T, by simp only [mstep, he, ptr_nil, Res.bind_ok], h, .refl _ _ _ _⟩
    | node i pp v hh l rr =>
      rw [ht] at he
      obtain ⟨o, s', u, e, hl, hp⟩ := hf i pp v hh l rr ht (ht ▸ rep_subAt _ (h.rep k)) (ht ▸ nodup_subAt _ (h.nodup k)) (by
        have := h.fuel k (q ++ r)
        rw [ht] at this
        rw [ids_length]; omega)
      refine ⟨.base o, { w with s := s' }, _, by simp only [mstep, he, ptr_node, e, Res.bind_ok], hl.inv h ht, ?_⟩
      exact Under.mono (r := r) ⟨u, rfl, by rw [hl.ptr, ht], fun hs => by rw [ht]; exact hp (hop ▸ hs)⟩
  match op, hb with
  | .base (.addLeft j p x), hb =>
    obtain ⟨rfl, hp⟩ := hb
    refine key _ p _ hp rfl rfl fun i pp v hh l r _ hr hn _ => ?_
    obtain ⟨s', u, e, hl, -⟩ := addLeft_loc hr hn h.fresh x
    exact ⟨_, s', u, by simp only [e, Res.bind_ok]; rfl, hl, fun hs => hs.elim⟩
  | .base (.addRight j p x), hb =>
    obtain ⟨rfl, hp⟩ := hb
    refine key _ p _ hp rfl rfl fun i pp v hh l r _ hr hn _ => ?_
    obtain ⟨s', u, e, hl, -⟩ := addRight_loc hr hn h.fresh x
    exact ⟨_, s', u, by simp only [e, Res.bind_ok]; rfl, hl, fun hs => hs.elim⟩
  | .base (.deleteChild j p dir), hb =>
    obtain ⟨rfl, hp⟩ := hb
    refine key _ p _ hp rfl rfl fun i pp v hh l r _ hr hn hfu => ?_
    match dir with
    | 0 =>
      obtain ⟨s', e, hl, -⟩ := deleteLeft_loc hr hn h.fresh hfu
      exact ⟨_, s', _, by simp only [e, Res.bind_ok]; rfl, hl, fun _ => .node (.nil _) (.refl _)⟩
    | 1 =>
      obtain ⟨s', e, hl, -⟩ := deleteRight_loc hr hn h.fresh hfu
      exact ⟨_, s', _, by simp only [e, Res.bind_ok]; rfl, hl, fun _ => .node (.refl _) (.nil _)⟩
    | dir + 2 =>
      exact ⟨.bool false, w.s, _, by simp only [deleteChild, cell_eq hr.1, Res.bind_ok], .refl hr hn h.fresh, fun _ => .refl _⟩
  | .base (.swap j p dir), hb =>
    obtain ⟨rfl, hp⟩ := hb
    refine key _ p _ hp rfl rfl fun i pp v hh l r _ hr hn _ => ?_
    obtain ⟨s', u, e, hl, -⟩ := swap_loc hr hn h.fresh dir
    exact ⟨_, s', u, by simp only [e, Res.bind_ok]; rfl, hl, fun _ => skel_prune (skel_links (same_swap e) hr hl.rep hl.ptr)⟩
  | .base (.setValue j p x), hb =>
    obtain ⟨rfl, hp⟩ := hb
    refine key _ p _ hp rfl rfl fun i pp v hh l r _ hr hn _ => ?_
    exact ⟨_, _, _, by simp only [Mem.setValue, change_eq hr.1, Res.bind_ok]; rfl, setVal_loc hr hn h.fresh x,
      fun _ => .node (.refl _) (.refl _)⟩
  | .base (.clearNode j p), hb =>
    obtain ⟨rfl, hp⟩ := hb
    refine key _ p _ hp rfl rfl fun i pp v hh l r _ hr hn hfu => ?_
    obtain ⟨s', e, hl, -⟩ := clear_loc hr hn h.fresh hfu
    exact ⟨_, s', _, by simp only [e, Res.bind_ok]; rfl, hl, fun _ => .node (.nil _) (.nil _)⟩

theorem below_run (dflt : α) {S : Prop} {k : Nat} {q : List Bool} : ∀ (ops : List (MOp α)) {w : World α} {T : Nat → Tree α}, Inv w.s T →
    subAt (T k) q ≠ .nil → (∀ op ∈ ops, OpBelow k q op) → (S → ∀ op ∈ ops, AddsNone op) →
    ∃ os w' T', mrun dflt w ops = .ok (os, w') ∧ Inv w'.s T' ∧ Under S k q T T' := by
  intro ops
  induction ops with
  | nil => intro w T h _ _ _; exact ⟨[], w, T, rfl, h, .refl _ _ _ _⟩
  | cons op ops ih =>
    intro w T h hne hb hs
    obtain ⟨o, w1, T1, e1, i1, u1⟩ := below_step dflt h (hb op (by simp))
    have u1 : Under S k q T T1 := u1.weak fun hS => hs hS op (by simp)
    have hne1 : subAt (T1 k) q ≠ .nil := by
      have := (u1.sub hne).1
      intro hc
      rw [hc] at this
      exact hne (ptr_none.1 this.symm)
    obtain ⟨os, w2, T2, e2, i2, u2⟩ := ih i1 hne1 (fun op' h' => hb op' (by simp [h'])) (fun hS op' h' => hs hS op' (by simp [h']))
    exact ⟨o :: os, w2, T2, by simp only [mrun, e1, e2, Res.bind_ok], i2, u1.trans u2 hne⟩

theorem Inv.at {s : St α} {T : Nat → Tree α} (h : Inv s T) {k : Nat} {q : List Bool} {i : Nat} {p : Ptr} {v : α} {hh : Nat}
    {l r : Tree α} (ht : subAt (T k) q = .node i p v hh l r) : cell s i = .ok ⟨p, v, hh, ptr l, ptr r⟩ := by
  have := rep_subAt q (h.rep k)
  rw [ht] at this
  exact cell_eq this.1

theorem ptr_node_of {t : Tree α} {i : Nat} (h : ptr t = some i) : ∃ p v hh l r, t = .node i p v hh l r := by
  cases t with
  | nil => cases h
  | node j p v hh l r =>
    simp only [ptr_node, Option.some.injEq] at h
    subst h
    exact ⟨p, v, hh, l, r, rfl⟩

/-- The call of a local callback. -/
theorem visit_local (dflt : α) {S : Prop} {cb : Callback α} (hcb : Local cb) (hS : S → ∀ tr i w, ∀ op ∈ (cb tr i w).1, AddsNone op)
    {w : World α} {T : Nat → Tree α} (h : Inv w.s T) {k : Nat} {q : List Bool} {i : Nat} (hi : ptr (subAt (T k) q) = some i) (tr : List Nat) :
    ∃ b w' T', visit dflt cb w tr i = .ok (b, tr ++ [i], w') ∧ Inv w'.s T' ∧ Under S k q T T' := by
  obtain ⟨p, v, hh, l, r, ht⟩ := ptr_node_of hi
  obtain ⟨os, w', T', e, i', u'⟩ := below_run dflt (S := S) (cb tr i w).1 h (ptr_ne hi) (hcb tr i w k q (by rw [h.follow, hi]))
    (fun hs => hS hs tr i w)
  exact ⟨(cb tr i w).2, w', T', by simp only [visit, h.at ht, Run.of_ok, Run.bind_ok, e], i', u'⟩

/-- As `Under`, but the top may be gone. -/
def UnderW (S : Prop) (k : Nat) (q : List Bool) (T T' : Nat → Tree α) : Prop :=
  ∃ u, T' = upd T k (putAt (T k) q u) ∧ (ptr u = ptr (subAt (T k) q) ∨ u = .nil ∧ q ≠ []) ∧ (S → Prune u (subAt (T k) q))

theorem Under.toW {S : Prop} {k : Nat} {q : List Bool} {T T' : Nat → Tree α} (h : Under S k q T T') : UnderW S k q T T' := by
  obtain ⟨u, h1, h2, h3⟩ := h
  exact ⟨u, h1, .inl h2, h3⟩

theorem Under.transW {S : Prop} {k : Nat} {q : List Bool} {T T1 T2 : Nat → Tree α} (h1 : Under S k q T T1) (h2 : UnderW S k q T1 T2)
    (hne : subAt (T k) q ≠ .nil) : UnderW S k q T T2 := by
  obtain ⟨u, rfl, a2, a3⟩ := h1
  obtain ⟨u', rfl, b2, b3⟩ := h2
  rw [upd_self, subAt_putAt_self u hne] at b2 b3
  refine ⟨u', ?_, ?_, fun hs => (b3 hs).trans (a3 hs)⟩
  · rw [upd_self, putAt_putAt, upd_upd]
  · rw [← a2]; exact b2

theorem UnderW.up {S : Prop} {k : Nat} {q : List Bool} {b : Bool} {T T' : Nat → Tree α} (h : UnderW S k (q ++ [b]) T T') :
    Under S k q T T' := by
  obtain ⟨u, h1, -, h3⟩ := h
  rw [putAt_append] at h1
  rw [subAt_append] at h3
  refine ⟨_, h1, ?_, fun hs => .put [b] (h3 hs)⟩
  cases subAt (T k) q with
  | nil => rfl
  | node => cases b <;> rfl

theorem UnderW.other {S : Prop} {k : Nat} {q q' : List Bool} {T T' : Nat → Tree α} (h : UnderW S k q T T') (h1 : ¬ q <+: q')
    (h2 : ¬ q' <+: q) : subAt (T' k) q' = subAt (T k) q' := by
  obtain ⟨u, rfl, -⟩ := h
  rw [upd_self, subAt_putAt_sep q h1 h2]

/-- The call of a local callback that may delete the visited node at last. -/
theorem visit_delete (dflt : α) {S : Prop} {cb : Callback α} (hcb : LocalDelete cb)
    (hS : S → ∀ tr i w, ∀ op ∈ (cb tr i w).1, AddsNone op)
    {w : World α} {T : Nat → Tree α} (h : Inv w.s T) {k : Nat} {q : List Bool} {i : Nat} (hi : ptr (subAt (T k) q) = some i) (tr : List Nat) :
    ∃ b w' T', visit dflt cb w tr i = .ok (b, tr ++ [i], w') ∧ Inv w'.s T' ∧ UnderW S k q T T' := by
  obtain ⟨p, v, hh, l, r, ht⟩ := ptr_node_of hi
  obtain ⟨ops, last, hops, hb, hlast⟩ := hcb tr i w k q (by rw [h.follow, hi])
  obtain ⟨os, w1, T1, e1, i1, u1⟩ := below_run dflt (S := S) ops h (ptr_ne hi) hb
    (fun hs op ho => hS hs tr i w op (by rw [hops]; simp [ho]))
  rcases hlast with rfl | ⟨q', b, rfl, rfl⟩
  · rw [List.append_nil] at hops
    exact ⟨(cb tr i w).2, w1, T1, by simp only [visit, h.at ht, Run.of_ok, Run.bind_ok, hops, e1], i1, u1.toW⟩
  · have hne1 : subAt (T1 k) (q' ++ [b]) ≠ .nil := ptr_ne ((u1.sub (ptr_ne hi)).1.trans hi)
    cases ht1 : subAt (T1 k) q' with
    | nil => rw [subAt_append, ht1] at hne1; exact absurd rfl hne1
    | node a pp v' h' l' r' =>
      have hr : Rep w1.s.mem (.node a pp v' h' l' r') := ht1 ▸ rep_subAt _ (i1.rep k)
      have hn : (ids (.node a pp v' h' l' r')).Nodup := ht1 ▸ nodup_subAt _ (i1.nodup k)
      have hfu : (ids (.node a pp v' h' l' r')).length ≤ w1.s.fuel := by
        have := i1.fuel k q'
        rw [ht1] at this
        rw [ids_length]; omega
      have hdel : ∃ o s', bstep dflt w1.s (.deleteChild k q' (if b then 1 else 0)) = .ok (o, s') ∧
          Inv s' (upd T1 k (putAt (T1 k) (q' ++ [b]) .nil)) := by
        simp only [bstep, onNode_rep i1, ht1, ptr_node]
        rw [putAt_append, ht1]
        cases b with
        | false =>
          obtain ⟨s', e, hl, -⟩ := deleteLeft_loc hr hn i1.fresh hfu
          exact ⟨_, s', by simp only [Bool.false_eq_true, if_false, e, Res.bind_ok]; rfl, by simpa only [putAt, putAt_nil] using hl.inv i1 ht1⟩
        | true =>
          obtain ⟨s', e, hl, -⟩ := deleteRight_loc hr hn i1.fresh hfu
          exact ⟨_, s', by simp only [if_true, e, Res.bind_ok]; rfl, by simpa only [putAt, putAt_nil] using hl.inv i1 ht1⟩
      obtain ⟨o, s', e2, i2⟩ := hdel
      refine ⟨(cb tr i w).2, { w1 with s := s' }, _, ?_, i2, u1.transW ⟨.nil, rfl, .inr ⟨rfl, by simp⟩, fun _ => .nil _⟩ (ptr_ne hi)⟩
      simp only [visit, h.at ht, Run.of_ok, Run.bind_ok, hops, mrun_append dflt ops w _ e1, mrun, mstep, e2, Res.bind_ok]

/-! ### The recursive traversals -/

/-- A traversal of the subtree at `q` changed only that subtree and visited, if no nodes are added, its nodes at most once. -/
def Walked (S : Prop) (k : Nat) (q : List Bool) (T : Nat → Tree α) (tr : List Nat) (res : Nat × List Nat × World α) : Prop :=
  ∃ T' add, Inv res.2.2.s T' ∧ UnderW S k q T T' ∧ res.2.1 = tr ++ add ∧ add.length = res.1 ∧
    (S → add.Nodup ∧ ∀ x ∈ add, x ∈ ids (subAt (T k) q))

/-- As `Walked`, for traversals that leave the top. -/
def Walked' (S : Prop) (k : Nat) (q : List Bool) (T : Nat → Tree α) (tr : List Nat) (res : Nat × List Nat × World α) : Prop :=
  ∃ T' add, Inv res.2.2.s T' ∧ Under S k q T T' ∧ res.2.1 = tr ++ add ∧ add.length = res.1 ∧
    (S → add.Nodup ∧ ∀ x ∈ add, x ∈ ids (subAt (T k) q))

theorem Walked'.weak {S : Prop} {k : Nat} {q : List Bool} {T : Nat → Tree α} {tr : List Nat} {res : Nat × List Nat × World α}
    (h : Walked' S k q T tr res) : Walked S k q T tr res := by
  obtain ⟨T', add, h1, h2, h3⟩ := h
  exact ⟨T', add, h1, h2.toW, h3⟩

/-- The traversal of a child, if there is one. -/
theorem child_walk {S : Prop} {k fuel : Nat} (f : World α → List Nat → Nat → Run (Nat × List Nat × World α))
    (ih : ∀ {w : World α} {T : Nat → Tree α} {q : List Bool} {j : Nat} (tr : List Nat), Inv w.s T → ptr (subAt (T k) q) = some j →
      (f w tr j).Sat (¬ (S ∧ sz (subAt (T k) q) < fuel)) (Walked S k q T tr))
    {w : World α} {T : Nat → Tree α} {q : List Bool} (b : Bool) (tr : List Nat) (h : Inv w.s T) (hne : subAt (T k) q ≠ .nil) :
    ((match ptr (subAt (T k) (q ++ [b])) with
      | some j => f w tr j
      | none => .ok (0, tr, w)) : Run _).Sat (¬ (S ∧ sz (subAt (T k) q) < fuel + 1)) (Walked S k (q ++ [b]) T tr) := by
  cases hp : ptr (subAt (T k) (q ++ [b])) with
  | none => exact ⟨T, [], h, (Under.refl _ _ _ _).toW, by simp, rfl, fun _ => ⟨List.nodup_nil, by simp⟩⟩
  | some j =>
    refine (ih tr h hp).mono (fun hL hc => hL ⟨hc.1, ?_⟩) fun _ hb => hb
    rw [subAt_append]
    cases ht : subAt (T k) q with
    | nil => exact absurd ht hne
    | node i p v hh l r =>
      have := hc.2
      rw [ht] at this
      cases b <;> simp only [subAt, sz, Bool.false_eq_true, if_false, if_true] at this ⊢ <;> omega

theorem Prune.side {u t : Tree α} (h : Prune u t) (b : Bool) : Prune (subAt u [b]) (subAt t [b]) := by
  cases h with
  | nil t => exact .nil _
  | node h1 h2 => cases b <;> simpa [subAt, subAt_nil]

theorem nodup_sides {i : Nat} {p : Ptr} {v : α} {h : Nat} {l r : Tree α} (hn : (ids (.node i p v h l r)).Nodup) {A B : List Nat}
    (hA : A.Nodup) (hB : B.Nodup) (a : ∀ x ∈ A, x ∈ ids l) (b : ∀ x ∈ B, x ∈ ids r) {C : List Nat} (hC : C.Perm (i :: (A ++ B))) :
    C.Nodup ∧ ∀ x ∈ C, x ∈ ids (.node i p v h l r) := by
  obtain ⟨n1, n2, n3, n4, n5⟩ := nodup_node.1 hn
  refine ⟨hC.nodup_iff.2 ?_, fun x hx => ?_⟩
  · rw [List.nodup_cons, List.nodup_append]
    refine ⟨fun hc => ?_, hA, hB, fun x hx y hy e => n5 x (a x hx) (e ▸ b y hy)⟩
    rcases List.mem_append.1 hc with hc | hc
    · exact n1 (a _ hc)
    · exact n2 (b _ hc)
  · have := hC.mem_iff.1 hx
    simp only [ids, List.mem_cons, List.mem_append] at this ⊢
    rcases this with h | h | h
    · exact .inl h
    · exact .inr (.inl (a x h))
    · exact .inr (.inr (b x h))

theorem sep_sides (q : List Bool) : ¬ (q ++ [false]) <+: (q ++ [true]) ∧ ¬ (q ++ [true]) <+: (q ++ [false]) := by
  constructor <;> (intro h; have := List.IsPrefix.eq_of_length h (by simp); simp at this)

theorem fuel_sides {S : Prop} {fuel : Nat} {t u : Tree α} (h : ¬ (S ∧ sz u < fuel + 1)) (hp : S → Prune u t) :
    ¬ (S ∧ sz t < fuel + 1) := fun hc => h ⟨hc.1, Nat.lt_of_le_of_lt (hp hc.1).sz hc.2⟩

theorem inOrder_local (dflt : α) {S : Prop} {cb : Callback α} (hcb : Local cb) (hS : S → ∀ tr i w, ∀ op ∈ (cb tr i w).1, AddsNone op)
    (k : Nat) : ∀ (fuel : Nat) {w : World α} {T : Nat → Tree α} {q : List Bool} {i : Nat} (tr : List Nat), Inv w.s T →
      ptr (subAt (T k) q) = some i →
      (inOrder dflt cb fuel w tr i).Sat (¬ (S ∧ sz (subAt (T k) q) < fuel)) (Walked' S k q T tr) := by
  intro fuel
  induction fuel with
  | zero => intro w T q i tr _ _; exact fun hc => absurd hc.2 (Nat.not_lt_zero _)
  | succ fuel ih =>
    intro w T q i tr h hi
    obtain ⟨p, v, hh, l, r, ht⟩ := ptr_node_of hi
    have hne := ptr_ne hi
    have hn : (ids (.node i p v hh l r)).Nodup := ht ▸ nodup_subAt q (h.nodup k)
    have el : ptr (subAt (T k) (q ++ [false])) = ptr l := by rw [subAt_append, ht]; simp [subAt]
    unfold inOrder
    simp only [h.at ht, Run.of_ok, Run.bind_ok, ← el]
    refine (child_walk (fun w tr j => inOrder dflt cb fuel w tr j)
      (fun tr h hi => (ih tr h hi).mono id fun _ hb => hb.weak) false tr h hne).bind ?_
    rintro ⟨n, tr1, w1⟩ ⟨T1, A, i1, u1, rfl, rfl, g1⟩
    have u1' : Under S k q T T1 := u1.up
    have hi1 := (u1'.sub hne).1.trans hi
    obtain ⟨stop, w2, T2, ev, i2, u2⟩ := visit_local dflt hcb hS i1 hi1 (tr ++ A)
    have u2' := u1'.trans u2 hne
    have hi2 := (u2'.sub hne).1.trans hi
    obtain ⟨p2, v2, hh2, l2, r2, ht2⟩ := ptr_node_of hi2
    simp only [ev, Run.bind_ok]
    cases stop with
    | true =>
      refine ⟨T2, A ++ [i], i2, u2', by simp, by simp, fun hs => ?_⟩
      rw [ht]
      refine nodup_sides hn (g1 hs).1 List.nodup_nil ?_ (by simp) (by simp)
      have := (g1 hs).2
      rw [subAt_append, ht] at this
      simpa [subAt, subAt_nil] using this
    | false =>
      have er : ptr (subAt (T2 k) (q ++ [true])) = ptr r2 := by rw [subAt_append, ht2]; simp [subAt]
      simp only [i2.at ht2, Run.of_ok, Run.bind_ok, ← er, Bool.false_eq_true, if_false]
      refine ((child_walk (fun w tr j => inOrder dflt cb fuel w tr j)
        (fun tr h hi => (ih tr h hi).mono id fun _ hb => hb.weak) true (tr ++ A ++ [i]) i2 (ptr_ne hi2)).mono
        (fun hL => fuel_sides hL (u2'.sub hne).2) fun _ hb => hb).bind ?_
      rintro ⟨m, tr3, w3⟩ ⟨T3, B, i3, u3, rfl, rfl, g3⟩
      refine ⟨T3, A ++ [i] ++ B, i3, u2'.trans u3.up hne, by simp, by simp; omega, fun hs => ?_⟩
      have hA := (g1 hs).2
      rw [subAt_append, ht] at hA
      have hB : ∀ x ∈ B, x ∈ ids r := fun x hx => by
        have h1 := (g3 hs).2 x hx
        rw [subAt_append] at h1
        have h2 := (((u2'.sub hne).2 hs).side true).ids x h1
        rw [ht] at h2
        simpa [subAt, subAt_nil] using h2
      rw [ht]
      refine nodup_sides hn (g1 hs).1 (g3 hs).1 (by simpa [subAt, subAt_nil] using hA) hB ?_
      rw [List.append_assoc]
      exact List.perm_middle

theorem preOrder_local (dflt : α) {S : Prop} {cb : Callback α} (hcb : Local cb) (hS : S → ∀ tr i w, ∀ op ∈ (cb tr i w).1, AddsNone op)
    (k : Nat) : ∀ (fuel : Nat) {w : World α} {T : Nat → Tree α} {q : List Bool} {i : Nat} (tr : List Nat), Inv w.s T →
      ptr (subAt (T k) q) = some i →
      (preOrder dflt cb fuel w tr i).Sat (¬ (S ∧ sz (subAt (T k) q) < fuel)) (Walked' S k q T tr) := by
  intro fuel
  induction fuel with
  | zero => intro w T q i tr _ _; exact fun hc => absurd hc.2 (Nat.not_lt_zero _)
  | succ fuel ih =>
    intro w T q i tr h hi
    obtain ⟨p, v, hh, l, r, ht⟩ := ptr_node_of hi
    have hne := ptr_ne hi
    have hn : (ids (.node i p v hh l r)).Nodup := ht ▸ nodup_subAt q (h.nodup k)
    obtain ⟨stop, w1, T1, ev, i1, u1⟩ := visit_local dflt hcb hS h hi tr
    have hi1 := (u1.sub hne).1.trans hi
    obtain ⟨p1, v1, hh1, l1, r1, ht1⟩ := ptr_node_of hi1
    unfold preOrder
    simp only [ev, Run.bind_ok]
    cases stop with
    | true =>
      refine ⟨T1, [i], i1, u1, rfl, rfl, fun _ => ⟨List.nodup_singleton _, fun x hx => ?_⟩⟩
      rw [List.mem_singleton.1 hx, ht]
      simp [ids]
    | false =>
      have el : ptr (subAt (T1 k) (q ++ [false])) = ptr l1 := by rw [subAt_append, ht1]; simp [subAt]
      simp only [i1.at ht1, Run.of_ok, Run.bind_ok, ← el, Bool.false_eq_true, if_false]
      refine ((child_walk (fun w tr j => preOrder dflt cb fuel w tr j)
        (fun tr h hi => (ih tr h hi).mono id fun _ hb => hb.weak) false (tr ++ [i]) i1 (ptr_ne hi1)).mono
        (fun hL => fuel_sides hL (u1.sub hne).2) fun _ hb => hb).bind ?_
      rintro ⟨n, tr2, w2⟩ ⟨T2, A, i2, u2, rfl, rfl, g2⟩
      have u2' : Under S k q T T2 := u1.trans u2.up hne
      have hi2 := (u2'.sub hne).1.trans hi
      obtain ⟨p2, v2, hh2, l2, r2, ht2⟩ := ptr_node_of hi2
      have er : ptr (subAt (T2 k) (q ++ [true])) = ptr r2 := by rw [subAt_append, ht2]; simp [subAt]
      simp only [i2.at ht2, Run.of_ok, Run.bind_ok, ← er]
      refine ((child_walk (fun w tr j => preOrder dflt cb fuel w tr j)
        (fun tr h hi => (ih tr h hi).mono id fun _ hb => hb.weak) true (tr ++ [i] ++ A) i2 (ptr_ne hi2)).mono
        (fun hL => fuel_sides hL (u2'.sub hne).2) fun _ hb => hb).bind ?_
      rintro ⟨m, tr3, w3⟩ ⟨T3, B, i3, u3, rfl, rfl, g3⟩
      refine ⟨T3, i :: (A ++ B), i3, u2'.trans u3.up hne, by simp, by simp; omega, fun hs => ?_⟩
      have side : ∀ {T' : Nat → Tree α} (b : Bool) (x : Nat), Under S k q T T' → x ∈ ids (subAt (T' k) (q ++ [b])) →
          x ∈ ids (if b then r else l) := fun {T'} b x u hx => by
        rw [subAt_append] at hx
        have h2 := (((u.sub hne).2 hs).side b).ids x hx
        rw [ht] at h2
        simpa [subAt, subAt_nil] using h2
      rw [ht]
      exact nodup_sides hn (g2 hs).1 (g3 hs).1 (fun x hx => by simpa using side false x u1 ((g2 hs).2 x hx))
        (fun x hx => by simpa using side true x u2' ((g3 hs).2 x hx)) (.refl _)

theorem posOrder_local (dflt : α) {S : Prop} {cb : Callback α} (hcb : LocalDelete cb)
    (hS : S → ∀ tr i w, ∀ op ∈ (cb tr i w).1, AddsNone op)
    (k : Nat) : ∀ (fuel : Nat) {w : World α} {T : Nat → Tree α} {q : List Bool} {i : Nat} (tr : List Nat), Inv w.s T →
      ptr (subAt (T k) q) = some i →
      (posOrder dflt cb fuel w tr i).Sat (¬ (S ∧ sz (subAt (T k) q) < fuel)) (Walked S k q T tr) := by
  intro fuel
  induction fuel with
  | zero => intro w T q i tr _ _; exact fun hc => absurd hc.2 (Nat.not_lt_zero _)
  | succ fuel ih =>
    intro w T q i tr h hi
    obtain ⟨p, v, hh, l, r, ht⟩ := ptr_node_of hi
    have hne := ptr_ne hi
    have hn : (ids (.node i p v hh l r)).Nodup := ht ▸ nodup_subAt q (h.nodup k)
    have el : ptr (subAt (T k) (q ++ [false])) = ptr l := by rw [subAt_append, ht]; simp [subAt]
    unfold posOrder
    simp only [h.at ht, Run.of_ok, Run.bind_ok, ← el]
    refine (child_walk (fun w tr j => posOrder dflt cb fuel w tr j) ih false tr h hne).bind ?_
    rintro ⟨n, tr1, w1⟩ ⟨T1, A, i1, u1, rfl, rfl, g1⟩
    have u1' : Under S k q T T1 := u1.up
    have hi1 := (u1'.sub hne).1.trans hi
    obtain ⟨p1, v1, hh1, l1, r1, ht1⟩ := ptr_node_of hi1
    have er : ptr (subAt (T1 k) (q ++ [true])) = ptr r1 := by rw [subAt_append, ht1]; simp [subAt]
    simp only [i1.at ht1, Run.of_ok, Run.bind_ok, ← er]
    refine ((child_walk (fun w tr j => posOrder dflt cb fuel w tr j) ih true (tr ++ A) i1 (ptr_ne hi1)).mono
      (fun hL => fuel_sides hL (u1'.sub hne).2) fun _ hb => hb).bind ?_
    rintro ⟨m, tr2, w2⟩ ⟨T2, B, i2, u2, rfl, rfl, g2⟩
    have u2' : Under S k q T T2 := u1'.trans u2.up hne
    have hi2 := (u2'.sub hne).1.trans hi
    obtain ⟨stop, w3, T3, ev, i3, u3⟩ := visit_delete dflt hcb hS i2 hi2 (tr ++ A ++ B)
    simp only [ev, Run.bind_ok]
    refine ⟨T3, A ++ B ++ [i], i3, u2'.transW u3 hne, by simp, by simp; omega, fun hs => ?_⟩
    have hA := (g1 hs).2
    rw [subAt_append, ht] at hA
    have hB : ∀ x ∈ B, x ∈ ids r := fun x hx => by
      have h1 := (g2 hs).2 x hx
      rw [subAt_append] at h1
      have h2 := (((u1'.sub hne).2 hs).side true).ids x h1
      rw [ht] at h2
      simpa [subAt, subAt_nil] using h2
    rw [ht]
    exact nodup_sides hn (g1 hs).1 (g2 hs).1 (by simpa [subAt, subAt_nil] using hA) hB (List.perm_append_singleton _ _)

/-! ### The searches -/

/-- Neither path leads through the other. -/
def Apart (p q : List Bool) : Prop := ¬ p <+: q ∧ ¬ q <+: p

theorem Apart.symm {p q : List Bool} (h : Apart p q) : Apart q p := ⟨h.2, h.1⟩

theorem Apart.down {p q : List Bool} (h : Apart q p) (b : Bool) : Apart (q ++ [b]) p := by
  refine ⟨fun hc => h.1 ((List.prefix_append q [b]).trans hc), fun hc => ?_⟩
  rcases List.prefix_concat_iff.1 hc with rfl | hc
  · exact h.1 (List.prefix_append q [b])
  · exact h.2 hc

/-- The children of a node, with their paths. -/
theorem kids_paths {T : Nat → Tree α} {k : Nat} {q : List Bool} {i : Nat} {p : Ptr} {v : α} {hh : Nat} {l r : Tree α}
    (ht : subAt (T k) q = .node i p v hh l r) : ∃ K : List (Nat × List Bool), kids (⟨p, v, hh, ptr l, ptr r⟩ : Cell α) = K.map Prod.fst ∧
      (∀ x ∈ K, ptr (subAt (T k) x.2) = some x.1) ∧ K.Pairwise (fun x y => Apart x.2 y.2) ∧ (∀ x ∈ K, ∃ b, x.2 = q ++ [b]) ∧
      (K.map fun x => sz (subAt (T k) x.2)).sum + 1 = sz (subAt (T k) q) := by
  have hl : subAt (T k) (q ++ [false]) = l := by rw [subAt_append, ht]; simp [subAt]
  have hr : subAt (T k) (q ++ [true]) = r := by rw [subAt_append, ht]; simp [subAt]
  have hs : Apart (q ++ [false]) (q ++ [true]) := sep_sides q
  rw [ht]
  cases l with
  | nil =>
    cases r with
    | nil => exact ⟨[], by simp [kids], by simp, by simp, by simp, by simp [sz]⟩
    | node j _ _ _ _ _ => exact ⟨[(j, q ++ [true])], by simp [kids], by simp [hr], by simp, by simp, by simp [sz, hr]⟩
  | node a _ _ _ _ _ =>
    cases r with
    | nil => exact ⟨[(a, q ++ [false])], by simp [kids], by simp [hl], by simp, by simp, by simp [sz, hl]⟩
    | node j _ _ _ _ _ =>
      exact ⟨[(a, q ++ [false]), (j, q ++ [true])], by simp [kids], by simp [hr, hl], by simp [hs], by simp, by simp [sz, hr, hl]⟩

theorem search_local (dflt : α) {S : Prop} {cb : Callback α} (hcb : Local cb) (hS : S → ∀ tr i w, ∀ op ∈ (cb tr i w).1, AddsNone op)
    (k : Nat) (deep : Bool) : ∀ (fuel : Nat) {w : World α} {T : Nat → Tree α} {Q : List (Nat × List Bool)} (tr : List Nat), Inv w.s T →
      (∀ x ∈ Q, ptr (subAt (T k) x.2) = some x.1) → Q.Pairwise (fun x y => Apart x.2 y.2) →
      (search dflt cb deep fuel w tr (Q.map Prod.fst)).Sat (¬ (S ∧ (Q.map fun x => sz (subAt (T k) x.2)).sum < fuel))
        (fun res => ∃ T' add, Inv res.2.2.s T' ∧ res.2.1 = tr ++ add ∧ add.length = res.1 ∧
          (S → add.Nodup ∧ ∀ x ∈ add, ∃ y ∈ Q, x ∈ ids (subAt (T k) y.2))) := by
  intro fuel
  induction fuel with
  | zero => intro w T Q tr _ _ _; exact fun hc => absurd hc.2 (Nat.not_lt_zero _)
  | succ fuel ih =>
    intro w T Q tr h hq hap
    cases Q with
    | nil => exact ⟨T, [], h, by simp, rfl, fun _ => ⟨List.nodup_nil, by simp⟩⟩
    | cons x Q =>
      obtain ⟨i, q⟩ := x
      have hi : ptr (subAt (T k) q) = some i := hq (i, q) (by simp)
      have hne := ptr_ne hi
      obtain ⟨hap1, hap2⟩ := List.pairwise_cons.1 hap
      obtain ⟨stop, w1, T1, ev, i1, u1⟩ := visit_local dflt hcb hS h hi tr
      have hi1 := (u1.sub hne).1.trans hi
      obtain ⟨p1, v1, hh1, l1, r1, ht1⟩ := ptr_node_of hi1
      have hi0 : i ∈ ids (subAt (T k) q) := ptr_mem hi
      simp only [List.map_cons, search, ev, Run.bind_ok, i1.at ht1, Run.of_ok]
      cases stop with
      | true =>
        exact ⟨T1, [i], i1, rfl, rfl, fun _ => ⟨List.nodup_singleton _, fun x hx => ⟨(i, q), by simp, by
          rw [List.mem_singleton.1 hx]; exact hi0⟩⟩⟩
      | false =>
        simp only [Bool.false_eq_true, if_false]
        obtain ⟨K, hk1, hk2, hk3, hk4, hk5⟩ := kids_paths ht1
        have hQ1 : ∀ x ∈ Q, subAt (T1 k) x.2 = subAt (T k) x.2 := fun x hx => u1.other (hap1 x hx).1 (hap1 x hx).2
        have hKQ : ∀ x ∈ K, ∀ y ∈ Q, Apart x.2 y.2 := fun x hx y hy => by
          obtain ⟨b, hb⟩ := hk4 x hx
          rw [hb]
          exact (hap1 y hy).down b
        have hQm : (Q.map fun x => sz (subAt (T1 k) x.2)) = Q.map fun x => sz (subAt (T k) x.2) :=
          List.map_congr_left fun x hx => by rw [hQ1 x hx]
        obtain ⟨Q2, e2, m2, a2, z2⟩ : ∃ Q2 : List (Nat × List Bool),
            (if deep = true then kids (⟨p1, v1, hh1, ptr l1, ptr r1⟩ : Cell α) ++ Q.map Prod.fst
              else Q.map Prod.fst ++ kids (⟨p1, v1, hh1, ptr l1, ptr r1⟩ : Cell α)) = Q2.map Prod.fst ∧
            (∀ x, x ∈ Q2 ↔ x ∈ K ∨ x ∈ Q) ∧ Q2.Pairwise (fun x y => Apart x.2 y.2) ∧
            (Q2.map fun x => sz (subAt (T1 k) x.2)).sum + 1 = sz (subAt (T1 k) q) + (Q.map fun x => sz (subAt (T k) x.2)).sum := by
          cases deep with
          | true =>
            refine ⟨K ++ Q, by simp [hk1], by simp, List.pairwise_append.2 ⟨hk3, hap2, hKQ⟩, ?_⟩
            rw [List.map_append, List.sum_append, hQm]
            omega
          | false =>
            refine ⟨Q ++ K, by simp [hk1], fun x => by simp [or_comm],
              List.pairwise_append.2 ⟨hap2, hk3, fun x hx y hy => (hKQ y hy x hx).symm⟩, ?_⟩
            rw [List.map_append, List.sum_append, hQm]
            omega
        rw [e2]
        have hIH := ih (tr ++ [i]) i1 (Q := Q2) (fun x hx => by
          rcases (m2 x).1 hx with hx | hx
          · exact hk2 x hx
          · rw [hQ1 x hx]; exact hq x (by simp [hx])) a2
        refine (hIH.mono (fun hL hc => hL ⟨hc.1, ?_⟩) fun _ hb => hb).bind ?_
        · have h1 := ((u1.sub hne).2 hc.1).sz
          have h2 := hc.2
          rw [List.sum_cons] at h2
          omega
        · rintro ⟨n, tr2, w2⟩ ⟨T2, add, i2, rfl, rfl, g2⟩
          refine ⟨T2, i :: add, i2, by simp, by simp, fun hs => ?_⟩
          have hn1 : (ids (.node i p1 v1 hh1 l1 r1)).Nodup := ht1 ▸ nodup_subAt q (i1.nodup k)
          obtain ⟨n1, n2, -⟩ := nodup_node.1 hn1
          refine ⟨List.nodup_cons.2 ⟨fun hc => ?_, (g2 hs).1⟩, fun x hx => ?_⟩
          · obtain ⟨y, hy, hx⟩ := (g2 hs).2 i hc
            rcases (m2 y).1 hy with hy | hy
            · obtain ⟨b, hb⟩ := hk4 y hy
              rw [hb, subAt_append, ht1] at hx
              cases b
              · exact n1 (by simpa [subAt] using hx)
              · exact n2 (by simpa [subAt] using hx)
            · exact subAt_disj y.2 (i1.nodup k) (hap1 y hy).2 (hap1 y hy).1 hx (ptr_mem hi1)
          · rcases List.mem_cons.1 hx with hx | hx
            · exact ⟨(i, q), by simp, hx ▸ hi0⟩
            · obtain ⟨y, hy, hx⟩ := (g2 hs).2 x hx
              rcases (m2 y).1 hy with hy | hy
              · obtain ⟨b, hb⟩ := hk4 y hy
                refine ⟨(i, q), by simp, ((u1.sub hne).2 hs).ids x ?_⟩
                rw [hb, subAt_append] at hx
                exact mem_subAt [b] hx
              · rw [hQ1 y hy] at hx
                exact ⟨y, by simp [hy], hx⟩

/-! ### C138 -/

/-- The full claim of C138: a traversal is never UB, whatever its callback does to the trees. -/
def C138_statement (α : Type) [LinearOrder α] : Prop :=
  ∀ (dflt : α) (cb : Callback α) (kind : Kind) (fuel : Nat) (ops : List (MOp α)) (outs : List MOut) (w : World α) (k : Nat),
    mrun dflt World.init ops = .ok (outs, w) → traverse dflt cb kind fuel w k ≠ .ub

/-- `[&](const auto& n) { t.remove(n.get()); return false; }` -/
def removeIt (k : Nat) : Callback Nat := fun _ i w =>
  ([.avl (.call k (.remove (match w.s.mem i with | some c => c.val | none => 0)))], false)

/-- The program, and then the traversal. -/
def runWalk (cb : Callback Nat) (kind : Kind) (fuel : Nat) (ops : List (MOp Nat)) (k : Nat) : Run (Nat × List Nat × World Nat) :=
  match mrun 0 World.init ops with
  | .ok (_, w) => traverse 0 cb kind fuel w k
  | _ => .long

def Run.isUb {β : Type} : Run β → Bool
  | .ub => true
  | _ => false

theorem runWalk_ub {cb : Callback Nat} {kind : Kind} {fuel : Nat} {ops : List (MOp Nat)} {k : Nat}
    (h : (runWalk cb kind fuel ops k).isUb = true) :
    ∃ outs w, mrun 0 World.init ops = .ok (outs, w) ∧ traverse 0 cb kind fuel w k = .ub := by
  unfold runWalk at h
  cases e : mrun 0 World.init ops with
  | ok p =>
    rw [e] at h
    refine ⟨p.1, p.2, rfl, ?_⟩
    simp only at h
    cases ht : traverse 0 cb kind fuel p.2 k with
    | ok => rw [ht] at h; cases h
    | ub => rfl
    | long => rw [ht] at h; cases h
  | exc x => rw [e] at h; cases h
  | ub => rw [e] at h; cases h

/-- C138 fails: `t.insert(1); t.in_order([&](const auto& n) { t.remove(n.get()); return false; })` reads the deleted node. -/
theorem C138_counterexample : ¬ C138_statement Nat := by
  intro h
  obtain ⟨outs, w, e, hu⟩ := runWalk_ub (cb := removeIt 0) (kind := .inOrder) (fuel := 9) (ops := [.avl (.call 0 (.insert 1))]) (k := 0)
    (by decide +kernel)
  exact h 0 _ _ _ _ outs w 0 e hu

/-- C138 fails for `pre_order` and both searches with the same callback, also if it answers true for the searches. -/
theorem C138_counterexample_others (kind : Kind) (hk : kind ≠ .posOrder) :
    ∃ outs w, mrun 0 World.init [.avl (.call 0 (.insert 1))] = .ok (outs, w) ∧ traverse 0 (removeIt 0) kind 9 w 0 = .ub := by
  apply runWalk_ub
  cases kind with
  | posOrder => exact absurd rfl hk
  | inOrder => decide +kernel
  | preOrder => decide +kernel
  | breadthFirst => decide +kernel
  | depthFirst => decide +kernel

/-- C138 fails for `pos_order`: the callback clears the tree when it is called with a leaf. -/
theorem C138_counterexample_pos : ∃ outs w, mrun 0 World.init [.avl (.call 0 (.insert 1)), .avl (.call 0 (.insert 2))] = .ok (outs, w) ∧
    traverse 0 (fun _ _ _ => ([.avl (.call 0 .clear)], true)) .posOrder 9 w 0 = .ub :=
  runWalk_ub (by decide +kernel)

/-- C138 fails for a callback that deletes another node than the visited one: a search has already queued it. -/
theorem C138_counterexample_sibling (kind : Kind) (hk : kind = .breadthFirst ∨ kind = .depthFirst) :
    ∃ outs w, mrun 0 World.init [.base (.addRoot 0 1), .base (.addLeft 0 [] 2), .base (.addRight 0 [] 3)] = .ok (outs, w) ∧
      traverse 0 (fun tr _ _ => (if tr.length = 1 then [.base (.deleteChild 0 [] 1)] else [], false)) kind 9 w 0 = .ub := by
  apply runWalk_ub
  rcases hk with rfl | rfl <;> decide +kernel

theorem Run.Sat.ne {β : Type} {r : Run β} {L : Prop} {P : β → Prop} (h : r.Sat L P) : r ≠ .ub := by
  rintro rfl
  exact h

theorem Local.delete {cb : Callback α} (h : Local cb) : LocalDelete cb := fun tr i w k q hf =>
  ⟨(cb tr i w).1, [], by simp, h tr i w k q hf, .inl rfl⟩

/-- What is true after a traversal that ended: the number of visits is returned, and the pointers in the trees are sound.  If no
node was added, each node was visited at most once, and only nodes of the tree. -/
def After (S : Prop) (k : Nat) (w : World α) (res : Nat × List Nat × World α) : Prop :=
  res.1 = res.2.1.length ∧
    (∀ j path i, follow res.2.2.s (res.2.2.s.roots j) path = some i → ∃ c, res.2.2.s.mem i = some c) ∧
    (S → res.2.1.Nodup ∧ ∀ i ∈ res.2.1, InTree w.s k i)

theorem Walked.after {S : Prop} {k : Nat} {w : World α} {T : Nat → Tree α} (h : Inv w.s T) {res : Nat × List Nat × World α}
    (hw : Walked S k [] T [] res) : After S k w res := by
  obtain ⟨T', add, h1, -, h3, h4, h5⟩ := hw
  rw [List.nil_append] at h3
  subst h3
  refine ⟨h4.symm, fun j path i hp => (h1.rep j).some (h1.inTree.1 ⟨path, hp⟩), fun hs => ⟨(h5 hs).1, fun i hi => h.inTree.2 ?_⟩⟩
  have := (h5 hs).2 i hi
  rwa [subAt_nil] at this

theorem traverse_local (dflt : α) {S : Prop} {cb : Callback α} {kind : Kind} (hcb : Local cb ∨ kind = .posOrder ∧ LocalDelete cb)
    (hS : S → ∀ tr i w, ∀ op ∈ (cb tr i w).1, AddsNone op) {w : World α} {T : Nat → Tree α} (h : Inv w.s T) (k fuel : Nat) :
    (traverse dflt cb kind fuel w k).Sat (¬ (S ∧ w.s.fuel ≤ fuel)) (After S k w) := by
  unfold traverse
  have hroot : w.s.roots k = ptr (subAt (T k) []) := by rw [subAt_nil, h.root k]
  cases hr : w.s.roots k with
  | none =>
    exact ⟨rfl, fun j path i hp => (h.rep j).some (h.inTree.1 ⟨path, hp⟩), fun _ => ⟨List.nodup_nil, by simp⟩⟩
  | some i =>
    have hi : ptr (subAt (T k) []) = some i := by rw [← hroot, hr]
    have hL : ¬ (S ∧ sz (subAt (T k) []) < fuel) → ¬ (S ∧ w.s.fuel ≤ fuel) := fun hn hc =>
      hn ⟨hc.1, Nat.lt_of_lt_of_le (h.fuel k []) hc.2⟩
    have hsearch : ∀ deep, Local cb → (search dflt cb deep fuel w [] [i]).Sat (¬ (S ∧ w.s.fuel ≤ fuel)) (After S k w) := by
      intro deep hcb
      refine (search_local dflt hcb hS k deep fuel (Q := [(i, [])]) [] h (by simpa using hi) (by simp)).mono
        (fun hn => hL fun hc => hn (by simpa using hc)) ?_
      rintro res ⟨T', add, h1, h3, h4, h5⟩
      rw [List.nil_append] at h3
      subst h3
      refine ⟨h4.symm, fun j path i hp => (h1.rep j).some (h1.inTree.1 ⟨path, hp⟩), fun hs => ⟨(h5 hs).1, fun i hi => h.inTree.2 ?_⟩⟩
      obtain ⟨y, hy, hx⟩ := (h5 hs).2 i hi
      rw [List.mem_singleton.1 hy, subAt_nil] at hx
      exact hx
    cases kind with
    | posOrder => exact (posOrder_local dflt (hcb.elim Local.delete And.right) hS k fuel [] h hi).mono hL fun _ hb => hb.after h
    | inOrder =>
      exact (inOrder_local dflt (hcb.elim id fun hc => by cases hc.1) hS k fuel [] h hi).mono hL fun _ hb => hb.weak.after h
    | preOrder =>
      exact (preOrder_local dflt (hcb.elim id fun hc => by cases hc.1) hS k fuel [] h hi).mono hL fun _ hb => hb.weak.after h
    | breadthFirst => exact hsearch false (hcb.elim id fun hc => by cases hc.1)
    | depthFirst => exact hsearch true (hcb.elim id fun hc => by cases hc.1)

/-- C138, the part that holds: a callback may add nodes, delete nodes and change values below the node it is called with, and the
callback of `pos_order` may at last delete that node through its parent.  The traversal is not UB, it returns the number of its
visits, and all pointers in the trees lead to allocated nodes afterwards.  Missing: callbacks that change other parts of the
trees. -/
theorem C138_local_partial {dflt : α} {cb : Callback α} {kind : Kind} (hcb : Local cb ∨ kind = .posOrder ∧ LocalDelete cb) (fuel : Nat)
    {ops : List (MOp α)} {outs : List MOut} {w : World α} (hw : mrun dflt World.init ops = .ok (outs, w)) (k : Nat) :
    traverse dflt cb kind fuel w k ≠ .ub ∧
    ∀ n tr w', traverse dflt cb kind fuel w k = .ok (n, tr, w') → n = tr.length ∧
      ∀ j path i, follow w'.s (w'.s.roots j) path = some i → ∃ c, w'.s.mem i = some c := by
  obtain ⟨T, hT⟩ := mrun_inv' hw
  have := traverse_local dflt (S := False) hcb (fun hf => hf.elim) hT k fuel
  refine ⟨this.ne, fun n tr w' e => ?_⟩
  rw [e] at this
  exact ⟨this.1, this.2.1⟩

/-- C138, if the callback adds no nodes either: the traversal ends, and it visits only nodes of the tree, each at most once. -/
theorem C138_ends_partial {dflt : α} {cb : Callback α} {kind : Kind} (hcb : Local cb ∨ kind = .posOrder ∧ LocalDelete cb)
    (hadd : ∀ tr i w, ∀ op ∈ (cb tr i w).1, AddsNone op)
    {ops : List (MOp α)} {outs : List MOut} {w : World α} (hw : mrun dflt World.init ops = .ok (outs, w)) (k : Nat) :
    ∃ fuel n tr w', traverse dflt cb kind fuel w k = .ok (n, tr, w') ∧ n = tr.length ∧ tr.Nodup ∧ ∀ i ∈ tr, InTree w.s k i := by
  obtain ⟨T, hT⟩ := mrun_inv' hw
  have := traverse_local dflt (S := True) hcb (fun _ => hadd) hT k w.s.fuel
  refine ⟨w.s.fuel, ?_⟩
  cases e : traverse dflt cb kind w.s.fuel w k with
  | ok res =>
    rw [e] at this
    exact ⟨res.1, res.2.1, res.2.2, rfl, this.1, (this.2.2 trivial).1, (this.2.2 trivial).2⟩
  | ub => rw [e] at this; exact this.elim
  | long => rw [e] at this; exact absurd ⟨trivial, Nat.le_refl _⟩ this

/-- `[](auto& n) { n.add_left(7); return false; }` on the leftmost nodes of tree 0. -/
def grow : Callback Nat := fun tr _ _ => ([.base (.addLeft 0 (List.replicate tr.length false) 7)], false)

theorem grow_long : ∀ (fuel : Nat) {w : World Nat} {T : Nat → Tree Nat} {tr : List Nat} {i : Nat} {p : Ptr} {v h : Nat} {r : Tree Nat},
    Inv w.s T → subAt (T 0) (List.replicate tr.length false) = .node i p v h .nil r → preOrder 0 grow fuel w tr i = .long := by
  intro fuel
  induction fuel with
  | zero => intros; rfl
  | succ fuel ih =>
    intro w T tr i p v h r hT ht
    have hr : Rep w.s.mem (.node i p v h .nil r) := ht ▸ rep_subAt _ (hT.rep 0)
    have hn : (ids (.node i p v h .nil r)).Nodup := ht ▸ nodup_subAt _ (hT.nodup 0)
    obtain ⟨s', u, e, hl, hu⟩ := addLeft_loc hr hn hT.fresh 7
    have hi' := hl.inv hT ht
    have hptr := hl.ptr
    cases u with
    | nil => cases hu
    | node i' p' v' h' l' r' =>
      cases l' with
      | nil => cases hu
      | node a pa va ha la ra =>
        simp only [erase, BT.node.injEq] at hu
        obtain ⟨-, ⟨-, hla, -⟩, -⟩ := hu
        have hla := erase_nil.1 hla
        subst hla
        simp only [ptr_node, Option.some.injEq] at hptr
        subst hptr
        have hsub : subAt (upd T 0 (putAt (T 0) (List.replicate tr.length false) (.node i' p' v' h' (.node a pa va ha .nil ra) r')) 0)
            (List.replicate tr.length false) = .node i' p' v' h' (.node a pa va ha .nil ra) r' := by
          rw [upd_self]
          exact subAt_putAt_self _ (by rw [ht]; simp)
        have hv : visit 0 grow w tr i' = .ok (false, tr ++ [i'], { w with s := s' }) := by
          simp only [visit, hT.at ht, Run.of_ok, Run.bind_ok, grow, mrun, mstep, bstep, onNode_rep hT, ht, ptr_node, e, Res.bind_ok]
        have := ih (w := { w with s := s' }) (tr := tr ++ [i']) (i := a) (p := pa) (v := va) (h := ha) (r := ra) hi' (by
          rw [List.length_append, List.length_singleton, List.replicate_succ', subAt_append, hsub]
          simp [subAt])
        unfold preOrder
        simp only [hv, Run.bind_ok, Bool.false_eq_true, if_false, hi'.at hsub, Run.of_ok, ptr_node, this, Run.bind_long]

/-- C138: a local callback that adds nodes may keep the traversal going forever: `pre_order` with a callback that calls
`add_left` on its node does not end. -/
theorem C138_endless (fuel : Nat) : ∃ outs w, mrun 0 World.init [.base (.addRoot 0 (1 : Nat))] = .ok (outs, w) ∧
    traverse 0 grow .preOrder fuel w 0 = .long := by
  obtain ⟨outs, w, e, hf⟩ := run_witness (ops := [.base (.addRoot 0 (1 : Nat))])
    (fun _ w => decide (w.s.roots 0 = some 0) && decide (w.s.mem 0 = some ⟨none, 1, 1, none, none⟩)) (by decide +kernel)
  simp only [Bool.and_eq_true, decide_eq_true_eq] at hf
  refine ⟨outs, w, e, ?_⟩
  obtain ⟨T, hT⟩ := mrun_inv' e
  have h1 : ptr (T 0) = some 0 := by rw [← hT.root 0, hf.1]
  obtain ⟨p, v, h, l, r, ht⟩ := ptr_node_of h1
  have h2 := (hT.rep 0)
  rw [ht] at h2
  have h3 := h2.1
  rw [hf.2] at h3
  simp only [Option.some.injEq, Cell.mk.injEq] at h3
  have hl := ptr_none.1 h3.2.2.2.1.symm
  subst hl
  simp only [traverse, hf.1]
  exact grow_long fuel hT (tr := []) (by simpa [subAt_nil] using ht)

/-- The hypotheses of `C138_local_partial` are satisfiable: each visited node of tree 0 gets a new value and loses its right
subtree. -/
example : ∃ cb : Callback Nat, Local cb ∧ (∀ tr i w, ∀ op ∈ (cb tr i w).1, AddsNone op) ∧
    (cb [] 0 (match mrun 0 World.init [.base (.addRoot 0 1)] with | .ok (_, w) => w | _ => World.init)).1 ≠ [] := by
  classical
  refine ⟨fun tr i w => if h : ∃ x : Nat × List Bool, follow w.s (w.s.roots x.1) x.2 = some i then
    (if ∀ k q, follow w.s (w.s.roots k) q = some i → (k, q) = Classical.choose h then
      [.base (.setValue (Classical.choose h).1 (Classical.choose h).2 5), .base (.deleteChild (Classical.choose h).1 (Classical.choose h).2 1)]
      else [], false) else ([], false), ?_, ?_, ?_⟩
  · intro tr i w k q hf op hop
    dsimp only at hop
    split at hop
    · split at hop
      · next h1 h2 =>
        have := h2 k q hf
        rw [← this] at hop
        simp only [List.mem_cons, List.not_mem_nil, or_false] at hop
        rcases hop with rfl | rfl <;> exact ⟨rfl, List.prefix_refl _⟩
      · cases hop
    · cases hop
  · intro tr i w op hop
    dsimp only at hop
    split at hop
    · split at hop
      · simp only [List.mem_cons, List.not_mem_nil, or_false] at hop
        rcases hop with rfl | rfl <;> trivial
      · cases hop
    · cases hop
  · obtain ⟨outs, w, e, hf⟩ := run_witness (ops := [.base (.addRoot 0 (1 : Nat))])
      (fun _ w => decide (w.s.roots 0 = some 0) && decide (w.s.mem 0 = some ⟨none, 1, 1, none, none⟩)) (by decide +kernel)
    simp only [Bool.and_eq_true, decide_eq_true_eq] at hf
    obtain ⟨T, hT⟩ := mrun_inv' e
    have h0 : follow w.s (w.s.roots 0) [] = some 0 := by rw [hf.1]; rfl
    have hex : ∃ x : Nat × List Bool, follow w.s (w.s.roots x.1) x.2 = some 0 := ⟨(0, []), h0⟩
    rw [e]
    simp only
    rw [dif_pos hex, if_pos]
    · simp
    · intro k q hq
      have h1 := hT.paths hq (Classical.choose_spec hex)
      exact Prod.ext h1.1 h1.2

def walkDump (r : Run (Nat × List Nat × World Nat)) : Option (Nat × List Nat × List (Option (Nat × Ptr × Ptr))) :=
  match r with
  | .ok (n, tr, w) => some (n, tr, (List.range w.s.next).map fun i => (w.s.mem i).map fun c => (c.val, c.left, c.right))
  | _ => none

set_option synthInstance.maxSize 1000 in
/-- `pos_order` on an AVL tree whose callback removes the value of its node: no UB here, but after a rotation the traversal misses
two of the four nodes. -/
example : walkDump (runWalk (removeIt 0) .posOrder 9
    [.avl (.call 0 (.insert 1)), .avl (.call 0 (.insert 2)), .avl (.call 0 (.insert 3)), .avl (.call 0 (.insert 4))] 0) =
    some (2, [0, 1], [none, none, some (3, none, some 3), some (4, none, none)]) := by decide +kernel

set_option synthInstance.maxSize 1000 in
/-- `pos_order` that deletes the children of each node: both leaves were visited before. -/
example : walkDump (runWalk (fun tr _ _ => if tr.length = 2 then ([.base (.clearNode 0 [])], false) else ([], false)) .posOrder 9
    [.base (.addRoot 0 1), .base (.addLeft 0 [] 2), .base (.addRight 0 [] 3)] 0) =
    some (3, [1, 2, 0], [some (1, none, none), none, none]) := by decide +kernel

end Verif.Mem
