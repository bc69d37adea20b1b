import Verif.Nary.Props

/-
C46 and C51: exactly for which trees and callbacks a true result ends the traversal.
-/

namespace Verif.Nary
open Spec
variable {α : Type}

/-- No node of the list satisfies `p`. -/
def Spec.NoneOf (p : BNode α → Bool) (l : List (BNode α)) : Prop := ∀ n ∈ l, p n = false

/-- The first node in order that satisfies `p`, if any, is the root, its right child, the right child of that, ... -/
def Spec.FirstOnRightSpine (p : BNode α → Bool) : Avl.Tree α → Prop
  | .nil => True
  | .node i _ v _ l r => NoneOf p (bInorder l) ∧ (p (i, v, l, r) = true ∨ FirstOnRightSpine p r)

/-- The first node in pre-order that satisfies `p`, if any, has no node behind it in pre-order that is not below it. -/
def Spec.FirstIsLastBranch (p : BNode α → Bool) : Avl.Tree α → Prop
  | .nil => True
  | .node i _ v _ l r => p (i, v, l, r) = true ∨
      (NoneOf p (bPreorder l) ∧ FirstIsLastBranch p r) ∨ (FirstIsLastBranch p l ∧ r = .nil)

theorem cutp_append (p : BNode α → Bool) : ∀ (a b tr tr' : List (BNode α)),
    (NoneOf p a → cut (fun _ n => p n) tr (a ++ b) = a ++ cut (fun _ n => p n) tr' b) ∧
    (¬ NoneOf p a → cut (fun _ n => p n) tr (a ++ b) = cut (fun _ n => p n) tr' a) := by
  have hind : ∀ (l tr tr' : List (BNode α)), cut (fun _ n => p n) tr l = cut (fun _ n => p n) tr' l := by
    intro l
    induction l with
    | nil => intros; rfl
    | cons n l ih => intro tr tr'; simp only [cut]; rw [ih (tr ++ [n]) (tr' ++ [n])]
  intro a
  induction a with
  | nil => exact fun b tr tr' => ⟨fun _ => hind _ _ _, fun h => absurd (by intro n hn; cases hn) h⟩
  | cons n a ih =>
    intro b tr tr'
    constructor
    · intro h
      have hn : p n = false := h n (by simp)
      simp only [List.cons_append, cut, hn, Bool.false_eq_true, if_false]
      rw [(ih b _ tr').1 (fun m hm => h m (by simp [hm]))]
    · intro h
      by_cases hn : p n = true
      · simp [cut, hn]
      · have hn' : p n = false := by simpa using hn
        simp only [List.cons_append, cut, hn', Bool.false_eq_true, if_false]
        rw [(ih b _ (tr' ++ [n])).2]
        intro h'
        apply h
        intro m hm
        rcases List.mem_cons.1 hm with rfl | hm
        · exact hn'
        · exact h' m hm

theorem cut_le (p : BNode α → Bool) : ∀ (l tr : List (BNode α)), (cut (fun _ n => p n) tr l).length ≤ l.length := by
  intro l
  induction l with
  | nil => intro; simp [cut]
  | cons n l ih => intro tr; simp only [cut]; split <;> simp [ih]

theorem cut_none (p : BNode α → Bool) (l tr : List (BNode α)) (h : NoneOf p l) : cut (fun _ n => p n) tr l = l := by
  have := (cutp_append p l [] tr tr).1 h
  simpa [cut] using this

theorem inPruned_none (p : BNode α → Bool) : ∀ t : Avl.Tree α, NoneOf p (bInorder t) → bInorderPruned p t = bInorder t := by
  intro t
  induction t with
  | nil => intro; rfl
  | node i q v h l r ihl ihr =>
    intro hn
    simp only [bInorder] at hn
    have h1 : p (i, v, l, r) = false := hn _ (by simp)
    simp only [bInorderPruned, bInorder, h1, Bool.false_eq_true, if_false]
    rw [ihl (fun n hm => hn n (by simp [hm])), ihr (fun n hm => hn n (by simp [hm]))]

theorem prePruned_none (p : BNode α → Bool) : ∀ t : Avl.Tree α, NoneOf p (bPreorder t) → bPreorderPruned p t = bPreorder t := by
  intro t
  induction t with
  | nil => intro; rfl
  | node i q v h l r ihl ihr =>
    intro hn
    simp only [bPreorder] at hn
    have h1 : p (i, v, l, r) = false := hn _ (by simp)
    simp only [bPreorderPruned, bPreorder, h1, Bool.false_eq_true, if_false]
    rw [ihl (fun n hm => hn n (by simp [hm])), ihr (fun n hm => hn n (by simp [hm]))]
    simp

theorem cut_in_le (p : BNode α → Bool) : ∀ t : Avl.Tree α,
    (cut (fun _ n => p n) [] (bInorder t)).length ≤ (bInorderPruned p t).length := by
  intro t
  induction t with
  | nil => simp [bInorder, cut]
  | node i q v h l r ihl ihr =>
    simp only [bInorder, bInorderPruned]
    by_cases hl : NoneOf p (bInorder l)
    · rw [(cutp_append p _ _ [] []).1 hl, inPruned_none p l hl]
      by_cases hp : p (i, v, l, r) = true
      · simp [cut, hp]
      · simp only [cut, hp, Bool.false_eq_true, if_false, List.length_append, List.length_cons]
        have e : cut (fun _ n => p n) ([] ++ [(i, v, l, r)]) (bInorder r) = cut (fun _ n => p n) [] (bInorder r) := by
          have := (cutp_append p [] (bInorder r) ([] ++ [(i, v, l, r)]) []).1 (by intro n hn; cases hn)
          simpa using this
        rw [e]; omega
    · rw [(cutp_append p _ _ [] []).2 hl]
      simp only [List.length_append, List.length_cons]; omega

theorem cut_pre_le (p : BNode α → Bool) : ∀ t : Avl.Tree α,
    (cut (fun _ n => p n) [] (bPreorder t)).length ≤ (bPreorderPruned p t).length := by
  intro t
  induction t with
  | nil => simp [bPreorder, cut]
  | node i q v h l r ihl ihr =>
    simp only [bPreorder, bPreorderPruned, List.cons_append]
    by_cases hp : p (i, v, l, r) = true
    · simp [cut, hp]
    · simp only [cut, hp, Bool.false_eq_true, if_false, List.length_cons, List.length_append]
      by_cases hl : NoneOf p (bPreorder l)
      · rw [(cutp_append p _ _ _ []).1 hl, prePruned_none p l hl]
        simp only [List.length_append]; omega
      · rw [(cutp_append p _ _ _ []).2 hl]
        omega

theorem prePruned_nil (p : BNode α → Bool) (t : Avl.Tree α) : bPreorderPruned p t = [] ↔ t = .nil := by
  cases t <;> simp [bPreorderPruned]

/-- C46, exactly: with a callback that depends on the node only, `in_order` ends with the first true result iff that
result came from a node of the right spine (or from none), and `pre_order` iff every node behind that node is below it. -/
theorem C46_exact (p : BNode α → Bool) (t : Avl.Tree α) :
    ((bIn (fun _ n => p n) t []).1 = cut (fun _ n => p n) [] (bInorder t) ↔ FirstOnRightSpine p t) ∧
    ((bPre (fun _ n => p n) t []).1 = cut (fun _ n => p n) [] (bPreorder t) ↔ FirstIsLastBranch p t) := by
  have e1 : (bIn (fun _ n => p n) t []).1 = bInorderPruned p t := by rw [bIn_pruned]; rfl
  have e2 : (bPre (fun _ n => p n) t []).1 = bPreorderPruned p t := by rw [bPre_pruned]; rfl
  rw [e1, e2]
  clear e1 e2
  have ctr : ∀ (l tr : List (BNode α)), cut (fun _ n => p n) tr l = cut (fun _ n => p n) [] l := by
    intro l tr
    simpa using (cutp_append p [] l tr []).1 (by intro n hn; cases hn)
  constructor
  · induction t with
    | nil => simp [bInorderPruned, bInorder, cut, FirstOnRightSpine]
    | node i q v h l r ihl ihr =>
      simp only [bInorder, bInorderPruned, FirstOnRightSpine]
      by_cases hl : NoneOf p (bInorder l)
      · rw [(cutp_append p _ _ [] []).1 hl, inPruned_none p l hl]
        by_cases hp : p (i, v, l, r) = true
        · simp [cut, hp, hl]
        · simp only [cut, hp, Bool.false_eq_true, if_false, hl, true_and, false_or]
          rw [ctr, ← ihr]
          simp
      · rw [(cutp_append p _ _ [] []).2 hl]
        refine ⟨fun h => ?_, fun h => absurd h.1 hl⟩
        have h1 := congrArg List.length h
        have h2 := cut_in_le p l
        simp only [List.length_append, List.length_cons] at h1
        omega
  · induction t with
    | nil => simp [bPreorderPruned, bPreorder, cut, FirstIsLastBranch]
    | node i q v h l r ihl ihr =>
      simp only [bPreorder, bPreorderPruned, FirstIsLastBranch, List.cons_append]
      by_cases hp : p (i, v, l, r) = true
      · simp [cut, hp]
      · simp only [cut, hp, Bool.false_eq_true, if_false, false_or, List.cons.injEq, true_and]
        by_cases hl : NoneOf p (bPreorder l)
        · rw [(cutp_append p _ _ _ []).1 hl, prePruned_none p l hl]
          simp only [hl, true_and, List.append_cancel_left_eq]
          rw [← ihr]
          constructor
          · exact Or.inl
          · rintro (h | ⟨-, rfl⟩)
            · exact h
            · rfl
        · rw [(cutp_append p _ _ _ []).2 hl]
          simp only [hl, false_and, false_or]
          rw [← ihl]
          constructor
          · intro h
            have h1 := congrArg List.length h
            have h2 := cut_pre_le p l
            simp only [List.length_append] at h1
            have h3 : bPreorderPruned p r = [] := List.length_eq_zero_iff.1 (by omega)
            rw [h3, List.append_nil] at h
            exact ⟨h, (prePruned_nil p r).1 h3⟩
          · rintro ⟨h, rfl⟩
            rw [← h]
            simp [bPreorderPruned]

example : (bIn (fun _ n => n.2.1 == 4) exBin []).1 = cut (fun _ n => n.2.1 == 4) [] (bInorder exBin) ↔
    FirstOnRightSpine (fun n => n.2.1 == 4) exBin := (C46_exact _ _).1

/-- C51, exactly: the calls of `in_order` of an n-ary tree end with the first true result iff the node that gave it has
slots, or no call follows anyway. -/
theorem C51_exact (f : Callback (Node α)) (n : Node α) :
    (inOrder f n).1 = cut f [] (inorderN n) ↔
      ∀ pre m post, inorderN n = pre ++ m :: post → cut f [] (pre ++ m :: post) = pre ++ [m] → f pre m = true →
        m.2 ≠ .nil ∨ post = [] := by
  rw [C51_stop_partial]
  generalize inorderN n = l
  suffices H : ∀ (l tr : List (Node α)),
      cut (fun tr m => match m.2 with | .nil => false | _ => f tr m) tr l = cut f tr l ↔
      ∀ pre m post, l = pre ++ m :: post → cut f tr (pre ++ m :: post) = pre ++ [m] → f (tr ++ pre) m = true →
        m.2 ≠ .nil ∨ post = [] by
    have := H l []
    simp only [List.nil_append] at this
    exact this
  have hne : ∀ (g : Callback (Node α)) (tr l : List (Node α)), cut g tr l = [] → l = [] := by
    intro g tr l h
    cases l with
    | nil => rfl
    | cons a l => simp only [cut] at h; split at h <;> cases h
  intro l
  induction l with
  | nil => intro tr; simp [cut]
  | cons a l ih =>
    intro tr
    by_cases hf : f tr a = true
    · by_cases ha : a.2 = .nil
      · have e1 : cut f tr (a :: l) = [a] := by simp [cut, hf]
        have e2 : cut (fun tr m => match m.2 with | .nil => false | _ => f tr m) tr (a :: l) =
            a :: cut (fun tr m => match m.2 with | .nil => false | _ => f tr m) (tr ++ [a]) l := by
          simp [cut, ha]
        rw [e1, e2]
        constructor
        · intro h pre m post hl hc _
          rw [← hl, e1] at hc
          have hl0 : l = [] := hne _ _ _ (by simpa using h)
          subst hl0
          right
          cases pre with
          | nil => simp at hl; exact hl.2
          | cons b pre => simp at hl
        · intro h
          have := h [] a l rfl (by simpa using e1) (by simpa using hf)
          rcases this with h | rfl
          · exact absurd ha h
          · rfl
      · have e1 : cut f tr (a :: l) = [a] := by simp [cut, hf]
        have e2 : cut (fun tr m => match m.2 with | .nil => false | _ => f tr m) tr (a :: l) = [a] := by
          simp only [cut]
          rw [if_pos]
          obtain ⟨v, k⟩ := a
          cases k with
          | nil => exact absurd rfl ha
          | null r => exact hf
          | node w k r => exact hf
        rw [e1, e2]
        refine ⟨fun _ pre m post hl hc _ => ?_, fun _ => rfl⟩
        rw [← hl, e1] at hc
        cases pre with
        | nil => simp at hl; left; rw [← hl.1]; exact ha
        | cons b pre => simp at hc
    · have e1 : cut f tr (a :: l) = a :: cut f (tr ++ [a]) l := by simp [cut, hf]
      have e2 : cut (fun tr m => match m.2 with | .nil => false | _ => f tr m) tr (a :: l) =
          a :: cut (fun tr m => match m.2 with | .nil => false | _ => f tr m) (tr ++ [a]) l := by
        simp only [cut]
        rw [if_neg]
        split <;> simp [hf]
      rw [e1, e2]
      simp only [List.cons.injEq, true_and]
      rw [ih (tr ++ [a])]
      constructor
      · intro h pre m post hl hc hm
        cases pre with
        | nil => simp at hl hm; rw [hl.1] at hf; exact absurd hm hf
        | cons b pre =>
          simp only [List.cons_append, List.cons.injEq] at hl
          obtain ⟨rfl, hl⟩ := hl
          refine h pre m post hl ?_ (by simpa using hm)
          rw [← hl]
          rw [List.cons_append, ← hl, e1] at hc
          simpa using hc
      · intro h pre m post hl hc hm
        refine h (a :: pre) m post (by simp [hl]) ?_ (by simpa using hm)
        rw [List.cons_append, ← hl, e1, hl, hc]
        rfl

example : (inOrder (fun _ n => n.1 == 2) exTree).1.map (·.1) = [4, 1, 0, 0, 2] ∧
    (inOrder (fun _ n => n.1 == 5) exTree).1.map (·.1) = [4, 1, 0, 0, 2, 5, 0, 3] := by decide

end Verif.Nary
