import Verif.Mem.RefineRemove
import Verif.Avl.Props

/-
C182: which nodes the parent links of an AVL tree name (binary_tree.h:754-975), in particular whether they name nodes that
were deleted.  C41 shows that the links are stale after rotations; here all stale links are described.
-/

namespace Verif.AvlPar
open Mem (ids ids_insert ids_rotateOnRemove)
open Avl (Tree Op run step)
open Avl.Spec (BalancedBy depth)
set_option linter.unusedSectionVars false
variable {α : Type}

/-- The subtree at the end of a path (`false` is left). -/
def Spec.subtree : Tree α → List Bool → Tree α
  | t, [] => t
  | .nil, _ :: _ => .nil
  | .node _ _ _ _ l r, d :: π => Spec.subtree (if d then r else l) π

/-- The node at the end of the path exists and stores `q` as its parent. -/
def Spec.Stores (t : Tree α) (π : List Bool) (q : Nat) : Prop := ∃ i v h l r, Spec.subtree t π = .node i (some q) v h l r

/-- The node `q` is at the end of the path. -/
def Spec.IsAt (t : Tree α) (π : List Bool) (q : Nat) : Prop := ∃ p v h l r, Spec.subtree t π = .node q p v h l r

/-- `q` is a node of the tree. -/
def Spec.Present (t : Tree α) (q : Nat) : Prop := ∃ π, Spec.IsAt t π q

/-- Every stored parent is a node of the tree. -/
def Spec.NoDangling (t : Tree α) : Prop := ∀ π q, Spec.Stores t π q → Spec.Present t q

open Spec

/-- Stored parents: `A` are the nodes above from which the way here is right, left, left, ...; `B` those from which it is
left, right, right, ...; `D` are the deleted nodes. -/
def Near (D A B : Nat → Prop) : Tree α → Prop
  | .nil => True
  | .node i p _ _ l r => (∀ q, p = some q → A q ∨ B q ∨ D q) ∧ Near D A (· = i) l ∧ Near D (· = i) B r

theorem Near.mono {D A B D' A' B' : Nat → Prop} {t : Tree α} (h : Near D A B t) (hA : ∀ q, A q → A' q ∨ D' q)
    (hB : ∀ q, B q → B' q ∨ D' q) (hD : ∀ q, D q → D' q) : Near D' A' B' t := by
  induction t generalizing A B A' B' with
  | nil => trivial
  | node i p v hh l r ihl ihr =>
    obtain ⟨h1, h2, h3⟩ := h
    refine ⟨fun q hq => ?_, ihl h2 hA (fun q h => Or.inl h), ihr h3 (fun q h => Or.inl h) hB⟩
    rcases h1 q hq with h | h | h
    · rcases hA q h with h | h
      · exact Or.inl h
      · exact Or.inr (Or.inr h)
    · rcases hB q h with h | h
      · exact Or.inr (Or.inl h)
      · exact Or.inr (Or.inr h)
    · exact Or.inr (Or.inr (hD q h))

/-! ### Rotations keep all links of this form -/

variable {D A B : Nat → Prop}

theorem near_rotateRight {t : Tree α} (h : Near D A B t) : Near D A B t.rotateRight := by
  unfold Tree.rotateRight
  split
  · obtain ⟨h1, ⟨-, h3, h4⟩, h5⟩ := h
    exact ⟨h1, h3, ⟨fun q hq => Or.inl (Option.some.inj hq).symm, h4, h5⟩⟩
  · exact h

theorem near_rotateLeft {t : Tree α} (h : Near D A B t) : Near D A B t.rotateLeft := by
  unfold Tree.rotateLeft
  split
  · obtain ⟨h1, h2, ⟨-, h4, h5⟩⟩ := h
    exact ⟨h1, ⟨fun q hq => Or.inr (Or.inl (Option.some.inj hq).symm), h2, h4⟩, h5⟩
  · exact h

theorem near_doubleRotateLeft {t : Tree α} (h : Near D A B t) : Near D A B t.doubleRotateLeft := by
  cases t with
  | nil => exact h
  | node i p v hh l r => exact near_rotateLeft ⟨h.1, h.2.1, near_rotateRight h.2.2⟩

theorem near_doubleRotateRight {t : Tree α} (h : Near D A B t) : Near D A B t.doubleRotateRight := by
  cases t with
  | nil => exact h
  | node i p v hh l r => exact near_rotateRight ⟨h.1, near_rotateLeft h.2.1, h.2.2⟩

theorem near_rotateOnRemove {t : Tree α} (h : Near D A B t) : Near D A B t.rotateOnRemove := by
  cases t with
  | nil => exact h
  | node i p v hh l r =>
    have h' : Near D A B (.node i p v (max l.height r.height + 1) l r) := h
    simp only [Tree.rotateOnRemove]
    split
    · cases l with
      | nil => exact h'
      | node => dsimp only; split; exacts [near_rotateRight h', near_doubleRotateRight h']
    · split
      · cases r with
        | nil => exact h'
        | node => dsimp only; split; exacts [near_rotateLeft h', near_doubleRotateLeft h']
      · exact h'

theorem near_node_remove {i p v hh} {l r : Tree α} (h : (∀ q, p = some q → A q ∨ B q ∨ D q) ∧ Near D A (· = i) l ∧ Near D (· = i) B r) :
    Near D A B (Tree.rotateOnRemove (.node i p v hh l r)) := near_rotateOnRemove h

variable [LinearOrder α]

theorem near_rotateIfNeeded {x : α} {t : Tree α} (h : Near D A B t) : Near D A B (t.rotateIfNeeded x) := by
  cases t with
  | nil => exact h
  | node i p v hh l r =>
    have h' : Near D A B (.node i p v (max l.height r.height + 1) l r) := h
    simp only [Tree.rotateIfNeeded]
    split
    · cases l with
      | nil => exact h'
      | node => dsimp only; split; exacts [near_rotateRight h', near_doubleRotateRight h']
    · split
      · cases r with
        | nil => exact h'
        | node => dsimp only; split; exacts [near_rotateLeft h', near_doubleRotateLeft h']
      · exact h'

theorem near_insert (dups : Bool) (fresh : Nat) (x : α) (n : Nat) {t : Tree α} (par : Option Nat) (h : Near D A B t)
    (hp : ∀ q, par = some q → A q ∨ B q ∨ D q) : Near D A B (t.insert dups fresh x n par).1 := by
  induction t generalizing par A B with
  | nil => exact ⟨hp, trivial, trivial⟩
  | node i p v hh l r ihl ihr =>
    obtain ⟨h1, h2, h3⟩ := h
    have hl := ihl (some i) h2 (fun q hq => Or.inr (Or.inl (Option.some.inj hq).symm))
    have hr := ihr (some i) h3 (fun q hq => Or.inl (Option.some.inj hq).symm)
    have el : ∀ g, Near D A B (Tree.node i p v g (l.insert dups fresh x n (some i)).1 r) := fun g => ⟨h1, hl, h3⟩
    have er : ∀ g, Near D A B (Tree.node i p v g l (r.insert dups fresh x n (some i)).1) := fun g => ⟨h1, h2, hr⟩
    unfold Tree.insert
    split
    · dsimp only; split; exacts [near_rotateIfNeeded (el hh), el hh]
    · split
      · dsimp only; split; exacts [near_rotateIfNeeded (er hh), er hh]
      · split
        · dsimp only; split; exacts [near_rotateIfNeeded (er hh), er hh]
        · exact ⟨h1, h2, h3⟩

/-! ### Removing -/

/-- A removal that removes deletes one node, and the links are as before, except that they may name it. -/
theorem near_remove (n : Nat) (x : α) {t : Tree α} (h : Near D A B t) :
    ((t.remove n x).2.1 = false ∧ Near D A B (t.remove n x).1 ∧ (ids (t.remove n x).1).Perm (ids t)) ∨
    ((t.remove n x).2.1 = true ∧ ∃ d, Near (fun q => D q ∨ q = d) A B (t.remove n x).1 ∧
      (ids t).Perm (d :: ids (t.remove n x).1)) := by
  induction t generalizing x A B with
  | nil => exact Or.inl ⟨rfl, trivial, List.Perm.refl _⟩
  | node i p v hh l r ihl ihr =>
    obtain ⟨h1, h2, h3⟩ := h
    have hL : ∀ (y w : α), ((l.remove n y).2.1 = false ∧ Near D A B (Tree.rotateOnRemove (.node i p w hh (l.remove n y).1 r)) ∧
        (ids (Tree.rotateOnRemove (.node i p w hh (l.remove n y).1 r))).Perm (ids (.node i p v hh l r))) ∨
        ((l.remove n y).2.1 = true ∧ ∃ d, Near (fun q => D q ∨ q = d) A B (Tree.rotateOnRemove (.node i p w hh (l.remove n y).1 r)) ∧
        (ids (.node i p v hh l r)).Perm (d :: ids (Tree.rotateOnRemove (.node i p w hh (l.remove n y).1 r)))) := by
      intro y w
      rcases ihl y h2 with ⟨e, k, s⟩ | ⟨e, d, k, s⟩
      · refine Or.inl ⟨e, near_rotateOnRemove ⟨h1, k, h3⟩, (ids_rotateOnRemove _).trans ?_⟩
        exact (s.append_right _).cons _
      · refine Or.inr ⟨e, d, near_rotateOnRemove ⟨fun q hq => ?_, k, h3.mono (fun q h => Or.inl h) (fun q h => Or.inl h) (fun q h => Or.inl h)⟩, ?_⟩
        · rcases h1 q hq with h | h | h
          exacts [Or.inl h, Or.inr (Or.inl h), Or.inr (Or.inr (Or.inl h))]
        · refine List.Perm.trans ?_ ((ids_rotateOnRemove _).symm.cons d)
          simp only [ids]
          refine ((s.append_right _).cons i).trans ?_
          exact List.Perm.swap _ _ _
    have hR : ∀ (y w : α), ((r.remove n y).2.1 = false ∧ Near D A B (Tree.rotateOnRemove (.node i p w hh l (r.remove n y).1)) ∧
        (ids (Tree.rotateOnRemove (.node i p w hh l (r.remove n y).1))).Perm (ids (.node i p v hh l r))) ∨
        ((r.remove n y).2.1 = true ∧ ∃ d, Near (fun q => D q ∨ q = d) A B (Tree.rotateOnRemove (.node i p w hh l (r.remove n y).1)) ∧
        (ids (.node i p v hh l r)).Perm (d :: ids (Tree.rotateOnRemove (.node i p w hh l (r.remove n y).1)))) := by
      intro y w
      rcases ihr y h3 with ⟨e, k, s⟩ | ⟨e, d, k, s⟩
      · refine Or.inl ⟨e, near_rotateOnRemove ⟨h1, h2, k⟩, (ids_rotateOnRemove _).trans ?_⟩
        exact (s.append_left _).cons _
      · refine Or.inr ⟨e, d, near_rotateOnRemove ⟨fun q hq => ?_, h2.mono (fun q h => Or.inl h) (fun q h => Or.inl h) (fun q h => Or.inl h), k⟩, ?_⟩
        · rcases h1 q hq with h | h | h
          exacts [Or.inl h, Or.inr (Or.inl h), Or.inr (Or.inr (Or.inl h))]
        · refine List.Perm.trans ?_ ((ids_rotateOnRemove _).symm.cons d)
          simp only [ids]
          refine ((s.append_left _).cons i).trans ?_
          refine (List.perm_middle.cons i).trans ?_
          exact List.Perm.swap _ _ _
    have hp : ∀ q, p = some q → A q ∨ B q ∨ D q ∨ q = i := fun q hq => by
      rcases h1 q hq with h | h | h
      exacts [Or.inl h, Or.inr (Or.inl h), Or.inr (Or.inr (Or.inl h))]
    unfold Tree.remove
    split
    · exact hL x v
    · split
      · exact hR x v
      · split
        · exact Or.inr ⟨rfl, i, trivial, by simp [ids]⟩
        · rename_i ci cp cv ch cl cr
          refine Or.inr ⟨rfl, i, near_rotateOnRemove (t := .node ci p cv ch cl cr) ?_, ?_⟩
          · obtain ⟨-, k1, k2⟩ := h2
            exact ⟨hp, k1.mono (fun q h => Or.inl h) (fun q h => Or.inl h) (fun q h => Or.inl h),
              k2.mono (fun q h => Or.inl h) (fun q h => Or.inr (Or.inr h)) (fun q h => Or.inl h)⟩
          · refine List.Perm.trans ?_ ((ids_rotateOnRemove (.node ci p cv ch cl cr)).symm.cons i)
            simp [Tree.setParent, ids]
        · rename_i ci cp cv ch cl cr
          refine Or.inr ⟨rfl, i, near_rotateOnRemove (t := .node ci p cv ch cl cr) ?_, ?_⟩
          · obtain ⟨-, k1, k2⟩ := h3
            exact ⟨hp, k1.mono (fun q h => Or.inr (Or.inr h)) (fun q h => Or.inl h) (fun q h => Or.inl h),
              k2.mono (fun q h => Or.inl h) (fun q h => Or.inl h) (fun q h => Or.inl h)⟩
          · refine List.Perm.trans ?_ ((ids_rotateOnRemove (.node ci p cv ch cl cr)).symm.cons i)
            simp [Tree.setParent, ids]
        · split
          · exact Or.inl ⟨rfl, ⟨h1, h2, h3⟩, List.Perm.refl _⟩
          · rename_i m _
            exact hR m m

/-- In a balanced tree a deleted node has at most one node below it, whose link is set. -/
theorem near_remove_balanced (n : Nat) (x : α) {t : Tree α} (hb : BalancedBy 1 t) (h : Near D A B t) : Near D A B (t.remove n x).1 := by
  induction t generalizing x A B with
  | nil => exact trivial
  | node i p v hh l r ihl ihr =>
    obtain ⟨h1, h2, h3⟩ := h
    obtain ⟨b1, b2, b3, b4⟩ := hb
    have d0 : ∀ t : Tree α, depth t = 0 → t = .nil := by
      intro t ht
      cases t with
      | nil => rfl
      | node => simp [depth] at ht
    unfold Tree.remove
    split
    · exact near_node_remove (hh := hh) ⟨h1, ihl x b3 h2, h3⟩
    · split
      · exact near_node_remove (hh := hh) ⟨h1, h2, ihr x b4 h3⟩
      · split
        · exact trivial
        · rename_i li lp lv lh ll lr
          simp only [depth] at b1
          have e1 := d0 ll (by omega)
          have e2 := d0 lr (by omega)
          subst e1 e2
          exact near_node_remove (i := li) (v := lv) (hh := lh) (l := .nil) (r := .nil) ⟨h1, trivial, trivial⟩
        · rename_i ri rp rv rh rl rr
          simp only [depth] at b2
          have e1 := d0 rl (by omega)
          have e2 := d0 rr (by omega)
          subst e1 e2
          exact near_node_remove (i := ri) (v := rv) (hh := rh) (l := .nil) (r := .nil) ⟨h1, trivial, trivial⟩
        · split
          · exact ⟨h1, h2, h3⟩
          · exact near_node_remove (hh := hh) ⟨h1, h2, ihr _ b4 h3⟩

/-! ### From the recursive form to paths -/

omit [LinearOrder α] in
theorem mem_ids {t : Tree α} {q : Nat} : q ∈ ids t ↔ Present t q := by
  constructor
  · intro h
    induction t with
    | nil => cases h
    | node i p v hh l r ihl ihr =>
      simp only [ids, List.mem_cons, List.mem_append] at h
      rcases h with rfl | h | h
      · exact ⟨[], p, v, hh, l, r, rfl⟩
      · obtain ⟨π, h⟩ := ihl h; exact ⟨false :: π, h⟩
      · obtain ⟨π, h⟩ := ihr h; exact ⟨true :: π, h⟩
  · rintro ⟨π, h⟩
    induction π generalizing t with
    | nil => obtain ⟨p, v, hh, l, r, e⟩ := h; simp only [subtree] at e; subst e; simp [ids]
    | cons d π ih =>
      cases t with
      | nil => obtain ⟨p, v, hh, l, r, e⟩ := h; cases e
      | node i p v hh l r =>
        cases d with
        | false => have := ih (t := l) h; simp [ids, this]
        | true => have := ih (t := r) h; simp [ids, this]

omit [LinearOrder α] in
theorem near_paths {t : Tree α} (h : Near D A B t) {π : List Bool} {q : Nat} (hs : Stores t π q) :
    D q ∨ (∃ ρ d k, π = ρ ++ d :: List.replicate k (!d) ∧ IsAt t ρ q) ∨
      (∃ k, π = List.replicate k false ∧ A q) ∨ (∃ k, π = List.replicate k true ∧ B q) := by
  induction π generalizing t A B with
  | nil =>
    obtain ⟨i, v, hh, l, r, e⟩ := hs
    simp only [subtree] at e
    subst e
    rcases h.1 q rfl with h | h | h
    exacts [Or.inr (Or.inr (Or.inl ⟨0, rfl, h⟩)), Or.inr (Or.inr (Or.inr ⟨0, rfl, h⟩)), Or.inl h]
  | cons d π ih =>
    cases t with
    | nil => obtain ⟨i, v, hh, l, r, e⟩ := hs; cases e
    | node i p v hh l r =>
      obtain ⟨h1, h2, h3⟩ := h
      cases d with
      | false =>
        rcases ih (t := l) h2 hs with h | ⟨ρ, d, k, e, hat⟩ | ⟨k, e, ha⟩ | ⟨k, e, hb⟩
        · exact Or.inl h
        · exact Or.inr (Or.inl ⟨false :: ρ, d, k, by rw [e]; rfl, hat⟩)
        · exact Or.inr (Or.inr (Or.inl ⟨k + 1, by rw [e]; rfl, ha⟩))
        · exact Or.inr (Or.inl ⟨[], false, k, by rw [e]; rfl, p, v, hh, l, r, by rw [hb]; rfl⟩)
      | true =>
        rcases ih (t := r) h3 hs with h | ⟨ρ, d, k, e, hat⟩ | ⟨k, e, ha⟩ | ⟨k, e, hb⟩
        · exact Or.inl h
        · exact Or.inr (Or.inl ⟨true :: ρ, d, k, by rw [e]; rfl, hat⟩)
        · exact Or.inr (Or.inl ⟨[], true, k, by rw [e]; rfl, p, v, hh, l, r, by rw [ha]; rfl⟩)
        · exact Or.inr (Or.inr (Or.inr ⟨k + 1, by rw [e]; rfl, hb⟩))

/-! ### C182 -/

/-- C182 (full statement): after every history every stored parent is a node of the tree. -/
def C182_statement (α : Type) [LinearOrder α] : Prop :=
  ∀ (ops : List (Op α)) (a : Avl.Avl α) os, run Avl.Avl.new ops = .ok (a, os) → NoDangling a.root

/-- The invariant of all histories. -/
def NearInv (a : Avl.Avl α) : Prop :=
  ∃ D : Nat → Prop, Near D (fun _ => False) (fun _ => False) a.root ∧ (∀ q, D q → q < a.next ∧ q ∉ ids a.root) ∧
    (ids a.root).Nodup ∧ ∀ q ∈ ids a.root, q < a.next

theorem nearInv_insert (a : Avl.Avl α) (x : α) (h : NearInv a) : NearInv (a.insert x).1 := by
  obtain ⟨D, h1, h2, h3, h4⟩ := h
  have hp := ids_insert a.dups a.next x a.size none a.root
  have hs : ∀ q, q ∈ ids (a.insert x).1.root → q ∈ ids a.root ∨ q = a.next := by
    intro q hq
    have := hp.subset hq
    split at this
    · rcases List.mem_cons.1 this with h | h
      exacts [Or.inr h, Or.inl h]
    · exact Or.inl this
  refine ⟨D, near_insert _ _ _ _ none h1 (fun q hq => by cases hq), fun q hq => ⟨?_, fun hin => ?_⟩, ?_, fun q hq => ?_⟩
  · have := (h2 q hq).1
    show q < a.next + 1
    omega
  · rcases hs q hin with h | h
    · exact (h2 q hq).2 h
    · have := (h2 q hq).1; omega
  · refine (hp.nodup_iff).2 ?_
    split
    · exact List.nodup_cons.2 ⟨fun h => Nat.lt_irrefl _ (h4 _ h), h3⟩
    · exact h3
  · show q < a.next + 1
    rcases hs q hq with h | h
    · have := h4 q h; omega
    · omega

theorem nearInv_remove (a : Avl.Avl α) (x : α) (h : NearInv a) : NearInv (a.remove x).1 := by
  obtain ⟨D, h1, h2, h3, h4⟩ := h
  rcases near_remove a.size x h1 with ⟨-, k, s⟩ | ⟨-, d, k, s⟩
  · exact ⟨D, k, fun q hq => ⟨(h2 q hq).1, fun hin => (h2 q hq).2 (s.subset hin)⟩, s.nodup_iff.2 h3, fun q hq => h4 q (s.subset hq)⟩
  · have hn := s.nodup_iff.1 h3
    obtain ⟨n1, n2⟩ := List.nodup_cons.1 hn
    refine ⟨_, k, fun q hq => ?_, n2, fun q hq => h4 q (s.symm.subset (List.mem_cons_of_mem _ hq))⟩
    rcases hq with hq | rfl
    · exact ⟨(h2 q hq).1, fun hin => (h2 q hq).2 (s.symm.subset (List.mem_cons_of_mem _ hin))⟩
    · exact ⟨h4 q (s.symm.subset List.mem_cons_self), n1⟩

theorem nearInv_run {ops : List (Op α)} {a : Avl.Avl α} {os} (h : run Avl.Avl.new ops = .ok (a, os)) : NearInv a :=
  Avl.run_inv NearInv (fun _ => True)
    (fun a op a' o h _ hs => Avl.step_inv NearInv nearInv_insert nearInv_remove
      (fun a h => by
        obtain ⟨D, h1, h2, h3, h4⟩ := h
        exact ⟨fun _ => False, trivial, fun q h => h.elim, List.nodup_nil, fun q h => by cases h⟩)
      (fun a b h => h) a op a' o h hs)
    ops Avl.Avl.new a os ⟨fun _ => False, trivial, fun q h => h.elim, List.nodup_nil, fun q h => by cases h⟩ (fun _ _ => trivial) h

/-- C182, exactly which links there are: after every history, a stored parent that is a node of the tree at all is an ancestor
from which the way down is one step and then only steps to the other side; with one step only it is the real parent.  All
other stored parents are nodes that were deleted. -/
theorem C182_links (ops : List (Op α)) (a : Avl.Avl α) (os : List Avl.Out) (h : run Avl.Avl.new ops = .ok (a, os))
    (π : List Bool) (q : Nat) (hs : Stores a.root π q) :
    ¬ Present a.root q ∨ ∃ ρ d k, π = ρ ++ d :: List.replicate k (!d) ∧ IsAt a.root ρ q := by
  obtain ⟨D, h1, h2, -⟩ := nearInv_run h
  rcases near_paths h1 hs with h | h | ⟨_, _, h⟩ | ⟨_, _, h⟩
  · exact Or.inl fun hp => (h2 q h).2 (mem_ids.2 hp)
  · exact Or.inr h
  · exact h.elim
  · exact h.elim

theorem near_of_noDangling {a : Avl.Avl α} (h : NearInv a) (hn : NoDangling a.root) :
    Near (fun _ => False) (fun _ => False) (fun _ => False) a.root := by
  obtain ⟨D, h1, h2, -⟩ := h
  have hq : ∀ π q, Stores a.root π q → ¬ D q := fun π q hs hd => (h2 q hd).2 (mem_ids.2 (hn π q hs))
  revert h1 hq
  generalize a.root = t
  clear h2 hn
  suffices H : ∀ (t : Tree α) (A B : Nat → Prop), Near D A B t → (∀ π q, Stores t π q → ¬ D q) → Near (fun _ => False) A B t from
    fun h1 hq => H t _ _ h1 hq
  intro t
  induction t with
  | nil => intros; trivial
  | node i p v hh l r ihl ihr =>
    intro A B h hq
    obtain ⟨h1, h2, h3⟩ := h
    refine ⟨fun q e => ?_, ihl _ _ h2 (fun π q hs => hq (false :: π) q hs), ihr _ _ h3 (fun π q hs => hq (true :: π) q hs)⟩
    rcases h1 q e with h | h | h
    · exact Or.inl h
    · exact Or.inr (Or.inl h)
    · subst e; exact absurd h (hq [] q ⟨i, v, hh, l, r, rfl⟩)

omit [LinearOrder α] in
theorem noDangling_of_near {t : Tree α} (h : Near (fun _ => False) (fun _ => False) (fun _ => False) t) : NoDangling t := by
  intro π q hs
  rcases near_paths h hs with h | ⟨ρ, d, k, -, hat⟩ | ⟨_, _, h⟩ | ⟨_, _, h⟩
  · exact h.elim
  · exact ⟨ρ, hat⟩
  · exact h.elim
  · exact h.elim

/-- C182 (part): no call but a removal makes a link to a deleted node, and a removal does not if the tree was balanced; so
there are none after histories without removals (with or without duplicates), nor after the first removal from a tree without
duplicates.  Missing: removals from trees that earlier removals (C35) or duplicates (C36) have put out of balance, see
`C182_counterexample`. -/
theorem C182_present_partial (ops : List (Op α)) (a : Avl.Avl α) (os : List Avl.Out) (h : run Avl.Avl.new ops = .ok (a, os)) :
    ((∀ x, Op.remove x ∉ ops ∧ Op.removeAll x ∉ ops) → NoDangling a.root) ∧
    (NoDangling a.root → (∀ x, NoDangling (a.insert x).1.root) ∧
      (BalancedBy 1 a.root → ∀ x, NoDangling (a.remove x).1.root)) := by
  have hin := nearInv_run h
  refine ⟨fun hno => ?_, fun hn => ⟨fun x => ?_, fun hb x => ?_⟩⟩
  · refine noDangling_of_near (Avl.run_inv (fun a => Near (fun _ => False) (fun _ => False) (fun _ => False) a.root)
      (fun op => ∀ x, op ≠ .remove x ∧ op ≠ .removeAll x) ?_ ops Avl.Avl.new a os trivial
      (fun op ho x => ⟨fun e => (hno x).1 (e ▸ ho), fun e => (hno x).2 (e ▸ ho)⟩) h)
    intro a op a' o hp hq hs
    cases op with
    | insert x => simp [step] at hs; rw [← hs.1]; exact near_insert _ _ _ _ none hp (fun q hq => by cases hq)
    | remove x => exact absurd rfl (hq x).1
    | removeAll x => exact absurd rfl (hq x).2
    | clear => simp [step] at hs; rw [← hs.1]; exact trivial
    | enableDuplicates => simp [step] at hs; rw [← hs.1]; exact hp
    | disableDuplicates => simp [step] at hs; rw [← hs.1]; exact hp
  · exact noDangling_of_near (near_insert _ _ _ _ none (near_of_noDangling hin hn) (fun q hq => by cases hq))
  · exact noDangling_of_near (near_remove_balanced _ _ hb (near_of_noDangling hin hn))

/-- The history of the counterexample. -/
def exDangle : List (Op Nat) :=
  [.insert 4, .insert 27, .insert 9, .insert 35, .insert 8, .insert 32, .insert 38, .insert 37, .insert 51, .insert 2, .insert 21,
   .insert 48, .insert 34, .insert 54, .insert 20, .remove 27, .insert 17, .insert 0, .insert 25, .insert 10, .insert 19, .insert 16,
   .insert 13, .insert 14, .remove 20, .remove 16]

/-- C182 is false, even without duplicates: at the end 14 hangs left, right, left, right of the root, and its stored parent is
node 20, which held 16 and was deleted when 16 was removed; `parent()` of this node answers freed memory. -/
theorem C182_counterexample : ¬ C182_statement Nat := by
  intro h
  obtain ⟨a, os, e⟩ : ∃ a os, run Avl.Avl.new exDangle = .ok (a, os) := by
    have : (match run Avl.Avl.new exDangle with | .ok _ => true | _ => false) = true := by decide +kernel
    cases e : run Avl.Avl.new exDangle with
    | ok p => exact ⟨p.1, p.2, rfl⟩
    | exc e' => rw [e] at this; cases this
    | ub => rw [e] at this; cases this
  have hs : Stores a.root [false, true, false, true] 20 ∧ 20 ∉ ids a.root := by
    have : (match run Avl.Avl.new exDangle with
        | .ok (a, _) => (match subtree a.root [false, true, false, true] with
          | .node i (some q) v _ .nil .nil => i == 22 && q == 20 && v == 14
          | _ => false) && !(ids a.root).contains 20
        | _ => false) = true := by decide +kernel
    rw [e] at this
    simp only [Bool.and_eq_true] at this
    obtain ⟨t1, t2⟩ := this
    refine ⟨?_, by simpa using t2⟩
    split at t1
    · rename_i i q v hh heq
      simp only [Bool.and_eq_true, beq_iff_eq] at t1
      exact ⟨i, v, hh, .nil, .nil, by rw [heq, t1.1.2]⟩
    · cases t1
  exact hs.2 (mem_ids.2 (h exDangle a os e _ _ hs.1))

/-- One call earlier node 22 (holding 14) names node 20, which is then present and holds 16, with one child (13) that has two
children of its own; the removal of 16 frees it. -/
example : (match run Avl.Avl.new exDangle.dropLast with
    | .ok (a, _) => (match subtree a.root [false, true, false, false, true] with | .node i (some q) v _ _ _ => (i, q, v) | _ => (0, 0, 0))
    | _ => (0, 0, 0)) = (22, 20, 14) := by decide +kernel

/-- A stale link that is present: after inserting 1..6 node 2 (holding 3) is at the left, right; it names the root, node 3, from which
the way to it is one step left and one step right. -/
example : Stores (Avl.build false [1, 2, 3, 4, 5, 6]).root [false, true] 3 ∧ IsAt (Avl.build false [1, 2, 3, 4, 5, 6]).root [] 3 :=
  ⟨⟨2, 3, 1, .nil, .nil, by decide +kernel⟩, ⟨none, 4, 3, _, _, rfl⟩⟩

end Verif.AvlPar
