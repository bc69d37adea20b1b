import Verif.Fenwick.Throw
import Mathlib.Tactic.Abel
import Mathlib.Data.List.Induction

/-! Property C161: Fenwick trees and exceptions. -/

namespace Verif.Fenwick
open Spec (Op Val put)

/-! ### Specification -/

namespace Spec

/-- Contents of an object: built from a list; never built; or not built, with a list that an interrupted build left behind. -/
inductive Cont (T : Type) where
  | built (a : List T)
  | fresh
  | dirty (a : List T)
deriving DecidableEq, Repr

/-- `xs` added to the first elements of a list. -/
def overlay {T : Type} [Add T] : List T → List T → List T
  | [], _ => []
  | b, [] => b
  | y :: b, x :: xs => (y + x) :: overlay b xs

/-- A build that completes replaces the elements, except for an object with the remains of a build that did not complete: if these
are as many elements, the new elements are added to them. -/
def Cont.rebuild {T : Type} [Add T] (c : Cont T) (xs : List T) : Cont T :=
  match c with
  | .dirty b => if xs.length ≤ b.length then .built (overlay b xs) else .built xs
  | _ => .built xs

/-- One call that completes. -/
def stepC {T : Type} [Add T] [Zero T] (σ : Nat → Cont T) : Op T → (Nat → Cont T) × Res (Val T)
  | .rebuild i input n => (put σ i ((σ i).rebuild (input.take n)), .ok .unit)
  | .update i p v =>
    match σ i with
    | .built a =>
      (put σ i (.built (if 1 ≤ p ∧ p ≤ a.length then a.modify (p - 1) (· + v) else a)), .ok (.bool (decide (p ≤ a.length))))
    | _ => (σ, .exc .notBuilt)
  | .setValue i p v =>
    match σ i with
    | .built a =>
      (put σ i (.built (if 1 ≤ p ∧ p ≤ a.length then a.set (p - 1) v else a)), .ok (.bool (decide (1 ≤ p ∧ p ≤ a.length))))
    | _ => (σ, .exc .notBuilt)
  | .query i x y =>
    match σ i with
    | .built a => (σ, .ok (.value (rangeSum a x y)))
    | _ => (σ, .exc .notBuilt)
  | .resize i k =>
    (put σ i (match σ i with
      | .built a => .built (a.take (k - 1))
      | .fresh => .fresh
      | .dirty a => .dirty (a.take (k - 1))), .ok .unit)
  | .copy dst src => (put σ dst (σ src), .ok .unit)
  | .move dst src => (put (put σ dst (σ src)) src .fresh, .ok .unit)

/-- Some contents of the same kind and of the same length or one of the lengths `ms`; an object that was never built may keep
elements. -/
inductive Damaged {T : Type} (ms : List Nat) : Cont T → Cont T → Prop
  | same (c) : Damaged ms c c
  | built {a b : List T} (h : b.length = a.length ∨ b.length ∈ ms) : Damaged ms (.built a) (.built b)
  | fresh {b : List T} (h : b.length ∈ ms) : Damaged ms .fresh (.dirty b)
  | dirty {a b : List T} (h : b.length = a.length ∨ b.length ∈ ms) : Damaged ms (.dirty a) (.dirty b)

/-- What is left of adding `v` at position `p` when it is interrupted: nothing has happened, or `v` has been added at `p` and is
missing at a later position `j`. -/
def Halfway {T : Type} [Add T] (a : List T) (p : Nat) (v : T) (b : List T) : Prop :=
  b = a ∨ ∃ j, 1 ≤ p ∧ p < j ∧ j ≤ a.length ∧ b.modify (j - 1) (· + v) = a.modify (p - 1) (· + v)

/-- One call that throws. -/
inductive Threw {T : Type} [AddCommGroup T] (σ : Nat → Cont T) : Op T → (Nat → Cont T) → Prop
  | query {i x y} : Threw σ (.query i x y) σ
  | update {i p v a b} (hi : σ i = .built a) (h : Halfway a p v b) : Threw σ (.update i p v) (put σ i (.built b))
  | setValue {i p v a b w} (hi : σ i = .built a) (hp : 1 ≤ p) (hw : a[p - 1]? = some w) (h : Halfway a p (v - w) b) :
    Threw σ (.setValue i p v) (put σ i (.built b))
  | rebuild {i input n c} (h : Damaged [min n input.length] (σ i) c) : Threw σ (.rebuild i input n) (put σ i c)
  | copy {dst src c} (h : Damaged [] (σ dst) c) : Threw σ (.copy dst src) (put σ dst c)

/-- A history: `none` for a call that throws. -/
inductive Calls {T : Type} [AddCommGroup T] : (Nat → Cont T) → List (Op T) → List (Option (Res (Val T))) → (Nat → Cont T) → Prop
  | nil {σ} : Calls σ [] [] σ
  | done {σ o os rs σ'} (h : Calls (stepC σ o).1 os rs σ') : Calls σ (o :: os) (some (stepC σ o).2 :: rs) σ'
  | threw {σ σ1 o os rs σ'} (h1 : Threw σ o σ1) (h : Calls σ1 os rs σ') : Calls σ (o :: os) (none :: rs) σ'

end Spec
open Spec (Cont Damaged Halfway Threw Calls overlay stepC)

/-! ### Every array of cells represents a list -/

variable {T : Type} [AddCommGroup T] [DecidableEq T]

/-- The arrays that represent lists. -/
def Shp (cells : List T) : Prop := cells.length ≤ W ∧ cells[0]? = some 0

theorem Inv.shp {cells a : List T} (h : Inv (sumT T) cells a) : Shp cells := ⟨h.lenW, h.zero⟩

theorem exists_rep (cells : List T) : Shp cells → ∃ a, Inv (sumT T) cells a := by
  induction cells using List.reverseRecOn with
  | nil => rintro ⟨-, h⟩; simp at h
  | append_singleton cs c ih =>
    rintro ⟨h1, h2⟩
    simp only [List.length_append, List.length_cons, List.length_nil, Nat.zero_add] at h1
    rcases cs.eq_nil_or_concat with rfl | hne
    · exact ⟨[], ⟨rfl, by simpa using h1, by simpa [sumT] using h2, fun i j1 j2 => by simp at j2; omega⟩⟩
    · have hpos : 0 < cs.length := by
        obtain ⟨l, x, rfl⟩ := hne; simp
      have hz : cs[0]? = some 0 := by rwa [List.getElem?_append_left hpos] at h2
      obtain ⟨a, ha⟩ := ih ⟨by omega, hz⟩
      have hl := ha.len
      have hlow := low_pos cs.length hpos
      refine ⟨a ++ [c - (slice a (cs.length - low cs.length) (cs.length - 1)).sum], ⟨by simp [hl], by simpa using h1,
        by rw [List.getElem?_append_left hpos]; exact ha.zero, fun i i1 i2 => ?_⟩⟩
      simp only [List.length_append, List.length_cons, List.length_nil, Nat.zero_add] at i2
      by_cases hi : i ≤ a.length
      · rw [List.getElem?_append_left (by omega), ha.cell i i1 hi]
        unfold slice
        rw [List.take_append_of_le_length hi]
      · have hi : i = cs.length := by omega
        subst hi
        rw [List.getElem?_append_right (Nat.le_refl _), Nat.sub_self, F_sum]
        have e1 : slice (a ++ [c - (slice a (cs.length - low cs.length) (cs.length - 1)).sum]) (cs.length - low cs.length) cs.length =
            slice a (cs.length - low cs.length) (cs.length - 1) ++ [c - (slice a (cs.length - low cs.length) (cs.length - 1)).sum] := by
          rw [show cs.length - 1 = a.length by omega]
          conv_lhs => unfold slice
          rw [List.take_of_length_le (by simp; omega), List.drop_append_of_le_length (by omega)]
          unfold slice
          rw [List.take_of_length_le (Nat.le_refl _)]
        rw [e1, List.sum_append]
        simp

theorem Inv.unique {cells a b : List T} (ha : Inv (sumT T) cells a) (hb : Inv (sumT T) cells b) : a = b := by
  have hl : a.length = b.length := by have := ha.len; have := hb.len; omega
  apply List.ext_getElem hl
  intro i h1 h2
  have e1 := sum_rangeQuery ha (i + 1) (i + 1) (Nat.le_refl _) (by omega)
  have e2 := sum_rangeQuery hb (i + 1) (i + 1) (Nat.le_refl _) (by omega)
  rw [e1] at e2
  rw [slice_single a (i + 1) (by omega) (by omega), slice_single b (i + 1) (by omega) (by omega)] at e2
  simpa using e2

/-! ### The calls -/

/-- An interrupted `_update`. -/
theorem Inv.halfway {cells a : List T} (h : Inv (sumT T) cells a) (k p : Nat) (v : T) :
    ∃ b, Inv (sumT T) (updateCellsT (sumT T) k cells p v).2 b ∧
      ((updateCellsT (sumT T) k cells p v).1 = none → 1 ≤ p → Halfway a p v b) ∧
      ((updateCellsT (sumT T) k cells p v).1 = none → 1 ≤ p) ∧
      (∀ k', (updateCellsT (sumT T) k cells p v).1 = some k' → b = if 1 ≤ p ∧ p ≤ a.length then a.modify (p - 1) (· + v) else a) := by
  have hl := h.len
  obtain ⟨u1, u2, u3, u4⟩ := updateCellsT_spec (sumT T) k cells p v
  obtain ⟨b, hb⟩ := exists_rep (updateCellsT (sumT T) k cells p v).2 ⟨by rw [u3]; exact h.lenW, by rw [u4]; exact h.zero⟩
  have hlb := hb.len
  rw [u3] at hlb
  refine ⟨b, hb, fun hn hp => ?_, fun hn => ?_, fun k' hk => ?_⟩
  · obtain ⟨j, j1, j2, j3, j4, j5⟩ := u2 hn
    rcases Nat.eq_or_lt_of_le j1 with e | e
    · left
      rw [j4 e.symm] at hb
      exact hb.unique h
    · right
      refine ⟨j, hp, e, by omega, ?_⟩
      have i1 := hb.update sumT_lawful j v j2 (by omega)
      rw [j5] at i1
      exact i1.unique (h.update sumT_lawful p v hp (by omega))
  · by_contra hp
    have : p = 0 := by omega
    subst this
    cases k <;> simp [updateCellsT] at hn
  · rw [u1 k' hk] at hb
    by_cases hp : 1 ≤ p ∧ p ≤ a.length
    · rw [if_pos hp]
      exact hb.unique (h.update sumT_lawful p v hp.1 hp.2)
    · rw [if_neg hp]
      rw [updateCells, dif_neg (by omega)] at hb
      exact hb.unique h

theorem overlay_zero (xs : List T) : overlay (List.replicate xs.length 0) xs = xs := by
  induction xs with
  | nil => rfl
  | cons x xs ih => simp only [List.length_cons, List.replicate_succ, overlay, ih, zero_add]

theorem inv_buildLoop_overlay (xs : List T) : ∀ (cells don rest : List T), Inv (sumT T) cells (don ++ rest) → xs.length ≤ rest.length →
    Inv (sumT T) (buildLoop (sumT T) cells (don.length + 1) xs) (don ++ overlay rest xs) := by
  induction xs with
  | nil =>
    intro cells don rest h _
    have : overlay rest [] = rest := by cases rest <;> rfl
    rw [this]
    exact h
  | cons x xs ih =>
    intro cells don rest h hl
    cases rest with
    | nil => simp at hl
    | cons y rest =>
      have h1 := h.update sumT_lawful (don.length + 1) x (by omega) (by simp)
      rw [Nat.add_sub_cancel, modify_append_mid] at h1
      have h2 := ih _ (don ++ [y + x]) rest (by rw [List.append_assoc]; exact h1) (by simpa using hl)
      simpa [buildLoop, overlay] using h2

/-- Relation between an object and its contents. -/
def RelC (f : Tree T) : Cont T → Prop
  | .built a => Reps (sumT T) f a
  | .fresh => Unbuilt f
  | .dirty a => f.built = false ∧ Inv (sumT T) f.processed a

theorem overwriteT_spec (k : Nat) (new cells : List T) (hl : new.length ≤ cells.length) :
    (overwriteT k new cells).2.length = cells.length ∧
    (new[0]? = some 0 → cells[0]? = some 0 → (overwriteT k new cells).2[0]? = some 0) ∧
    (∀ k', (overwriteT k new cells).1 = some k' → (overwriteT k new cells).2 = new ++ cells.drop new.length) := by
  unfold overwriteT
  by_cases h : new.length ≤ k
  · rw [if_pos h]
    refine ⟨by simp; omega, fun h1 _ => ?_, fun _ _ => rfl⟩
    have : 0 < new.length := (List.getElem?_eq_some_iff.1 h1).1
    rw [List.getElem?_append_left this]; exact h1
  · rw [if_neg h]
    refine ⟨by simp; omega, fun h1 h2 => ?_, fun k' h' => by cases h'⟩
    rcases Nat.eq_zero_or_pos k with rfl | hk
    · simpa using h2
    · rw [List.getElem?_append_left (by simp; omega), List.getElem?_take, if_pos hk]; exact h1

/-- The vector grows: it is the new one, or has the old length and shape. -/
theorem growT_spec (room : Bool) (k : Nat) (new cells : List T) (hl : cells.length ≤ new.length) :
    ((growT room k new cells).1 = none → (growT room k new cells).2.length = cells.length ∧
      (new[0]? = some 0 → cells[0]? = some 0 → (growT room k new cells).2[0]? = some 0)) ∧
    (∀ k', (growT room k new cells).1 = some k' → (growT room k new cells).2 = new) := by
  unfold growT
  cases room with
  | false =>
    cases k with
    | zero => exact ⟨fun _ => ⟨rfl, fun _ h => h⟩, fun k' h => by (cases h)⟩
    | succ k => exact ⟨fun h => by (cases h), fun _ _ => rfl⟩
  | true =>
    simp only [if_true]
    obtain ⟨o1, o2, -⟩ := overwriteT_spec k (new.take cells.length) cells (by simp; omega)
    have o3 : new[0]? = some 0 → cells[0]? = some 0 → (overwriteT k (new.take cells.length) cells).2[0]? = some 0 := fun h1 h2 =>
      o2 (by
        have : 0 < cells.length := (List.getElem?_eq_some_iff.1 h2).1
        rw [List.getElem?_take, if_pos this]; exact h1) h2
    generalize overwriteT k (new.take cells.length) cells = u at o1 o3
    obtain ⟨_ | _ | k', c⟩ := u
    · exact ⟨fun _ => ⟨o1, o3⟩, fun k' h => by (cases h)⟩
    · exact ⟨fun _ => ⟨o1, o3⟩, fun k' h => by (cases h)⟩
    · exact ⟨fun h => by (cases h), fun _ _ => rfl⟩

theorem RelC.shp {f : Tree T} {c : Cont T} (h : RelC f c) : f.processed.length ≤ W ∧ (f.processed = [] ∨ f.processed[0]? = some 0) := by
  cases c with
  | built a => exact ⟨h.2.lenW, .inr h.2.zero⟩
  | fresh => exact ⟨by rw [h.2]; exact Nat.zero_le _, .inl h.2⟩
  | dirty a => exact ⟨h.2.lenW, .inr h.2.zero⟩

/-- An object with other cells of the right shape is damaged at most. -/
theorem damaged_of_shp {f : Tree T} {c : Cont T} (h : RelC f c) {cells : List T} {ms : List Nat}
    (hs : cells = f.processed ∨ Shp cells ∧ (cells.length = f.processed.length ∨ cells.length - 1 ∈ ms)) :
    ∃ c', RelC { f with processed := cells } c' ∧ Damaged ms c c' := by
  rcases hs with rfl | ⟨hs, hl⟩
  · exact ⟨c, h, .same c⟩
  · obtain ⟨b, hb⟩ := exists_rep cells hs
    have hlb := hb.len
    cases c with
    | built a =>
      have := h.2.len
      exact ⟨.built b, ⟨h.1, hb⟩, .built (hl.imp (fun h => by omega) fun h => by rwa [show b.length = cells.length - 1 by omega])⟩
    | dirty a =>
      have := h.2.len
      exact ⟨.dirty b, ⟨h.1, hb⟩, .dirty (hl.imp (fun h => by omega) fun h => by rwa [show b.length = cells.length - 1 by omega])⟩
    | fresh =>
      have h0 : f.processed.length = 0 := by rw [h.2]; rfl
      exact ⟨.dirty b, ⟨h.1, hb⟩, .fresh (by
        rcases hl with hl | hl
        · omega
        · rwa [show b.length = cells.length - 1 by omega])⟩

theorem buildT_spec {f : Tree T} {c : Cont T} (h : RelC f c) (k : Nat) (room : Bool) (input : List T) (n : Nat)
    (hW : min n input.length + 1 ≤ W) :
    ((f.buildT (sumT T) k room input n).1 = true → RelC (f.buildT (sumT T) k room input n).2 (c.rebuild (input.take n))) ∧
    ((f.buildT (sumT T) k room input n).1 = false → ∃ c', RelC (f.buildT (sumT T) k room input n).2 c' ∧
      Damaged [min n input.length] c c') := by
  unfold Tree.buildT
  have hsize : (if n < input.length then n + 1 else input.length + 1) = min n input.length + 1 := by
    split <;> omega
  simp only [hsize, Nat.add_sub_cancel]
  have etake : input.take (min n input.length) = input.take n := List.take_eq_take_min.symm
  rw [etake]
  have hlen : (input.take n).length = min n input.length := List.length_take
  obtain ⟨s1, s2⟩ := h.shp
  -- what the preparation leaves
  have prep : ∃ r : Option Nat × List T, (if f.processed.length < min n input.length + 1 then
        growT room k (List.replicate (min n input.length + 1) (sumT T).null) f.processed
      else if f.built = true then overwriteT k (List.replicate (min n input.length + 1) (sumT T).null)
        (f.processed.take (min n input.length + 1))
      else (some k, f.processed)) = r ∧
      (r.1 = none → r.2 = f.processed ∨ Shp r.2 ∧ (r.2.length = f.processed.length ∨ r.2.length - 1 ∈ [min n input.length])) ∧
      (∀ k', r.1 = some k' →
        (r.2 = List.replicate (min n input.length + 1) 0 ∧ ∀ b, c = .dirty b → b.length < min n input.length) ∨
        ∃ b, c = .dirty b ∧ min n input.length ≤ b.length ∧ r.2 = f.processed) := by
    refine ⟨_, rfl, ?_⟩
    have z : (List.replicate (min n input.length + 1) (sumT T).null)[0]? = some 0 := by simp [sumT]
    by_cases h1 : f.processed.length < min n input.length + 1
    · rw [if_pos h1]
      obtain ⟨g1, g2⟩ := growT_spec room k (List.replicate (min n input.length + 1) (sumT T).null) f.processed (by simp; omega)
      refine ⟨fun hn => ?_, fun k' hk => .inl ⟨g2 k' hk, ?_⟩⟩
      · obtain ⟨g3, g4⟩ := g1 hn
        rcases s2 with s2 | s2
        · left; rw [s2] at g3 ⊢; exact List.length_eq_zero_iff.1 g3
        · exact .inr ⟨⟨by rw [g3]; exact s1, g4 z s2⟩, .inl g3⟩
      · rintro b rfl
        have := h.2.len; omega
    · rw [if_neg h1]
      by_cases h2 : f.built = true
      · rw [if_pos h2]
        have z2 : (f.processed.take (min n input.length + 1))[0]? = some 0 := by
          rw [List.getElem?_take, if_pos (by omega)]
          rcases s2 with s2 | s2
          · rw [s2] at h1; simp at h1
          · exact s2
        obtain ⟨o1, o2, o3⟩ := overwriteT_spec k (List.replicate (min n input.length + 1) (sumT T).null)
          (f.processed.take (min n input.length + 1)) (by simp; omega)
        have o4 : (f.processed.take (min n input.length + 1)).length = min n input.length + 1 := by simp; omega
        refine ⟨fun _ => .inr ⟨⟨by rw [o1, o4]; exact hW, o2 z z2⟩, .inr (by rw [o1, o4]; simp)⟩, fun k' hk => .inl ⟨?_, ?_⟩⟩
        · rw [o3 k' hk, List.drop_of_length_le (by simp; omega), List.append_nil]
          rfl
        · rintro b rfl
          have := h.1; rw [this] at h2; cases h2
      · rw [if_neg h2]
        refine ⟨fun hn => by (cases hn), fun k' _ => .inr ?_⟩
        cases c with
        | built a => exact absurd h.1 h2
        | fresh => rw [h.2] at h1; simp at h1
        | dirty b => exact ⟨b, rfl, by have := h.2.len; omega, rfl⟩
  obtain ⟨r, er, p1, p2⟩ := prep
  rw [er]
  obtain ⟨_ | k', cells⟩ := r
  · exact ⟨fun h' => by (cases h'), fun _ => damaged_of_shp h (p1 rfl)⟩
  · simp only
    obtain ⟨b1, b2, b3⟩ := buildLoopT_spec (sumT T) (input.take n) k' cells 1
    have fin : Shp cells ∧ (cells.length = f.processed.length ∨ cells.length - 1 ∈ [min n input.length]) ∧
        RelC ⟨buildLoop (sumT T) cells 1 (input.take n), true⟩ (c.rebuild (input.take n)) := by
      rcases p2 k' rfl with ⟨e, hd⟩ | ⟨b, rfl, hb, e⟩
      · simp only at e
        subst e
        have i1 := Inv.init (t := sumT T) sumT_lawful (min n input.length) hW
        have i2 := inv_buildLoop_overlay (input.take n) (List.replicate (min n input.length + 1) 0) [] (List.replicate (min n input.length) 0)
          i1 (by simp)
        have e2 : overlay (List.replicate (min n input.length) 0) (input.take n) = input.take n := by
          rw [← hlen]; exact overlay_zero _
        rw [e2] at i2
        refine ⟨i1.shp, .inr (by simp), ?_⟩
        have e3 : c.rebuild (input.take n) = .built (input.take n) := by
          cases c with
          | built a => rfl
          | fresh => rfl
          | dirty b =>
            have := hd b rfl
            simp only [Cont.rebuild]
            rw [if_neg (by rw [hlen]; omega)]
        rw [e3]
        exact ⟨rfl, i2⟩
      · simp only at e
        subst e
        have i2 := inv_buildLoop_overlay (input.take n) f.processed [] b h.2 (by rw [hlen]; exact hb)
        refine ⟨h.2.shp, .inl rfl, ?_⟩
        simp only [Cont.rebuild]
        rw [if_pos (by rw [hlen]; exact hb)]
        exact ⟨rfl, i2⟩
    obtain ⟨f1, f2, f3⟩ := fin
    generalize buildLoopT (sumT T) k' cells 1 (input.take n) = u at b1 b2 b3
    obtain ⟨_ | k2, cells'⟩ := u
    · exact ⟨fun h' => by (cases h'), fun _ => damaged_of_shp h (.inr ⟨⟨by rw [b2]; exact f1.1, by rw [b3]; exact f1.2⟩, by rw [b2]; exact f2⟩)⟩
    · have := b1 k2 rfl
      simp only at this
      subst this
      exact ⟨fun _ => f3, fun h' => by (cases h')⟩

theorem copyT_spec {f g : Tree T} {c d : Cont T} (h : RelC f c) (hg : RelC g d) (k : Nat) (room : Bool) :
    ((Tree.copyT k room f g).1 = true → RelC (Tree.copyT k room f g).2 d) ∧
    ((Tree.copyT k room f g).1 = false → ∃ c', RelC (Tree.copyT k room f g).2 c' ∧ Damaged [] c c') := by
  unfold Tree.copyT
  obtain ⟨s1, s2⟩ := h.shp
  obtain ⟨-, g2⟩ := hg.shp
  have prep : ∃ r : Option Nat × List T, copyCellsT k room f.processed g.processed = r ∧
      (r.1 = none → r.2 = f.processed ∨ Shp r.2 ∧ r.2.length = f.processed.length) ∧
      (∀ k', r.1 = some k' → r.2 = g.processed) := by
    refine ⟨_, rfl, ?_⟩
    unfold copyCellsT
    by_cases h1 : f.processed.length < g.processed.length
    · rw [if_pos h1]
      obtain ⟨q1, q2⟩ := growT_spec room k g.processed f.processed (by omega)
      refine ⟨fun hn => ?_, q2⟩
      obtain ⟨q3, q4⟩ := q1 hn
      rcases s2 with s2 | s2
      · left; rw [s2] at q3 ⊢; exact List.length_eq_zero_iff.1 q3
      · refine .inr ⟨⟨by rw [q3]; exact s1, q4 ?_ s2⟩, q3⟩
        rcases g2 with g2 | g2
        · rw [g2] at h1; simp at h1
        · exact g2
    · rw [if_neg h1]
      cases room with
      | false =>
        simp only [Bool.false_eq_true, if_false]
        cases k with
        | zero => exact ⟨fun _ => .inl rfl, fun k' h => by (cases h)⟩
        | succ k => exact ⟨fun h => by (cases h), fun _ _ => rfl⟩
      | true =>
        simp only [if_true]
        obtain ⟨o1, o2, o3⟩ := overwriteT_spec k g.processed f.processed (by omega)
        have o4 : (overwriteT k g.processed f.processed).1 = none → g.processed ≠ [] := by
          intro hn e
          unfold overwriteT at hn
          rw [e] at hn
          simp at hn
        generalize overwriteT k g.processed f.processed = u at o1 o2 o3 o4
        obtain ⟨_ | k', cells⟩ := u
        · refine ⟨fun _ => ?_, fun k' h => by (cases h)⟩
          have hne := o4 rfl
          rcases g2 with g2 | g2
          · exact absurd g2 hne
          · rcases s2 with s2 | s2
            · left; rw [s2] at o1 ⊢; exact List.length_eq_zero_iff.1 o1
            · exact .inr ⟨⟨by simp only at o1 ⊢; rw [o1]; exact s1, o2 g2 s2⟩, o1⟩
        · exact ⟨fun h => by (cases h), fun _ _ => rfl⟩
  obtain ⟨r, er, p1, p2⟩ := prep
  rw [er]
  obtain ⟨_ | k', cells⟩ := r
  · exact ⟨fun h' => by (cases h'), fun _ => damaged_of_shp h ((p1 rfl).imp_right fun q => ⟨q.1, .inl q.2⟩)⟩
  · have := p2 k' rfl
    simp only at this
    subst this
    exact ⟨fun _ => hg, fun h' => by (cases h')⟩

theorem updateT_spec {f : Tree T} {a : List T} (h : Reps (sumT T) f a) (k p : Nat) (v : T) :
    ∃ f' r, f.updateT (sumT T) k p v = (f', r) ∧
      ((r = some (.ok (decide (p ≤ a.length))) ∧
        Reps (sumT T) f' (if 1 ≤ p ∧ p ≤ a.length then a.modify (p - 1) (· + v) else a)) ∨
       (r = none ∧ ∃ b, Reps (sumT T) f' b ∧ Halfway a p v b)) := by
  have hl := h.2.len
  have hd : decide (p < f.processed.length) = decide (p ≤ a.length) := by
    rw [hl]; exact decide_eq_decide.2 (by omega)
  unfold Tree.updateT
  simp only [h.1, Bool.not_true, Bool.false_eq_true, if_false, hd]
  by_cases hc : (decide (p ≤ a.length) && (sumT T).truthy v) = true
  · rw [if_pos hc]
    obtain ⟨b, b1, b2, b3, b4⟩ := h.2.halfway k p v
    generalize updateCellsT (sumT T) k f.processed p v = u at b1 b2 b3 b4
    obtain ⟨_ | k', cells⟩ := u
    · exact ⟨_, _, rfl, .inr ⟨rfl, b, ⟨rfl, b1⟩, b2 rfl (b3 rfl)⟩⟩
    · refine ⟨_, _, rfl, .inl ⟨rfl, rfl, ?_⟩⟩
      rw [← b4 k' rfl]; exact b1
  · rw [if_neg hc]
    refine ⟨_, _, rfl, .inl ⟨rfl, h.1, ?_⟩⟩
    by_cases hp : 1 ≤ p ∧ p ≤ a.length
    · rw [if_pos hp]
      have hv : v = 0 := by
        simp only [hp.2, decide_true, Bool.true_and, sumT, ne_eq, decide_not, Bool.not_eq_true', decide_eq_false_iff_not, not_not] at hc
        simpa using hc
      subst hv
      have : a.modify (p - 1) (· + 0) = a := by
        have : (fun x : T => x + 0) = id := by funext x; simp
        rw [this, List.modify_id]
      rw [this]
      exact h.2
    · rw [if_neg hp]; exact h.2

theorem setValueT_spec {f : Tree T} {a : List T} (h : Reps (sumT T) f a) (k p : Nat) (v : T) :
    ∃ f' r, f.setValueT (sumT T) k p v = (f', r) ∧
      ((r = some (.ok (decide (1 ≤ p ∧ p ≤ a.length))) ∧
        Reps (sumT T) f' (if 1 ≤ p ∧ p ≤ a.length then a.set (p - 1) v else a)) ∨
       (r = none ∧ 1 ≤ p ∧ ∃ w b, a[p - 1]? = some w ∧ Reps (sumT T) f' b ∧ Halfway a p (v - w) b)) := by
  have hl := h.2.len
  have hd : (decide (p < f.processed.length) && decide (0 < p)) = decide (1 ≤ p ∧ p ≤ a.length) := by
    rw [← Bool.decide_and]; exact decide_eq_decide.2 (by omega)
  unfold Tree.setValueT
  simp only [h.1, Bool.not_true, Bool.false_eq_true, if_false, hd]
  by_cases hp : 1 ≤ p ∧ p ≤ a.length
  · simp only [decide_eq_true hp, if_pos hp, if_true]
    have eq := sum_rangeQuery h.2 p p (Nat.le_refl _) hp.2
    rw [slice_single a p hp.1 hp.2] at eq
    simp only [List.sum_cons, List.sum_nil, add_zero] at eq
    obtain ⟨c, hr⟩ := rangeQueryT_runs (sumT T) f.processed p p eq
    have hw : a[p - 1]? = some (a[p - 1]'(by omega)) := List.getElem?_eq_getElem (by omega)
    have hset := modify_add_sub a (p - 1) (by omega) v
    have hrun : Runs (do
        let cur ← rangeQueryT (sumT T) f.processed p p
        Th.tick
        Th.lift ((sumT T).rev v cur) : Th T) (c + (1 + 0)) (v - a[p - 1]'(by omega)) :=
      runs_bind hr (runs_bind runs_tick (runs_lift rfl))
    rw [hrun k]
    by_cases hk : c + (1 + 0) ≤ k
    · rw [if_pos hk]
      simp only
      by_cases ht : (sumT T).truthy (v - a[p - 1]'(by omega)) = true
      · rw [if_pos ht]
        obtain ⟨b, b1, b2, b3, b4⟩ := h.2.halfway (k - (c + (1 + 0))) p (v - a[p - 1]'(by omega))
        generalize updateCellsT (sumT T) (k - (c + (1 + 0))) f.processed p (v - a[p - 1]'(by omega)) = u at b1 b2 b3 b4
        obtain ⟨_ | k', cells⟩ := u
        · exact ⟨_, _, rfl, .inr ⟨rfl, hp.1, _, b, hw, ⟨rfl, b1⟩, b2 rfl hp.1⟩⟩
        · refine ⟨_, _, rfl, .inl ⟨rfl, rfl, ?_⟩⟩
          have := b4 k' rfl
          rw [if_pos hp, hset] at this
          rw [← this]; exact b1
      · rw [if_neg ht]
        refine ⟨_, _, rfl, .inl ⟨rfl, h.1, ?_⟩⟩
        have hv : v - a[p - 1]'(by omega) = 0 := by simpa [sumT] using ht
        rw [← hset, hv]
        have : a.modify (p - 1) (· + 0) = a := by
          have : (fun x : T => x + 0) = id := by funext x; simp
          rw [this, List.modify_id]
        rw [this]
        exact h.2
    · rw [if_neg hk]
      exact ⟨_, _, rfl, .inr ⟨rfl, hp.1, _, a, hw, h, .inl rfl⟩⟩
  · simp only [decide_eq_false hp, if_neg hp, Bool.false_eq_true, if_false]
    exact ⟨_, _, rfl, .inl ⟨rfl, h⟩⟩

theorem queryT_spec {f : Tree T} {a : List T} (h : Reps (sumT T) f a) (k x y : Nat) :
    f.queryT (sumT T) k x y = none ∨ f.queryT (sumT T) k x y = some (.ok (Spec.rangeSum a x y)) := by
  have e := Reps.query h x y
  unfold Tree.query at e
  unfold Tree.queryT
  simp only [h.1, Bool.not_true, Bool.false_eq_true, if_false] at e ⊢
  obtain ⟨c, hr⟩ := rangeQueryT_runs (sumT T) f.processed _ _ e
  rw [hr k]
  by_cases hk : c ≤ k
  · rw [if_pos hk]; exact .inr rfl
  · rw [if_neg hk]; exact .inl rfl

theorem relC_put {σ : Store T} {τ : Nat → Cont T} (h : ∀ i, RelC (σ i) (τ i)) {i : Nat} {f : Tree T} {c : Cont T} (hc : RelC f c) :
    ∀ j, RelC (put σ i f j) (put τ i c j) := by
  intro j
  unfold put
  by_cases e : j = i
  · rw [if_pos e, if_pos e]; exact hc
  · rw [if_neg e, if_neg e]; exact h j

theorem put_same {S : Type} (σ : Nat → S) (i : Nat) : put σ i (σ i) = σ := by
  funext j; unfold put; split
  · next e => rw [e]
  · rfl

theorem stepT_spec (k : Nat) (room : Bool) {σ : Store T} {τ : Nat → Cont T} (h : ∀ i, RelC (σ i) (τ i)) (o : Op T) (ho : o.Valid) :
    ∃ σ' r, stepT (sumT T) k room σ o = (σ', r) ∧
      ((r = some (stepC τ o).2 ∧ ∀ i, RelC (σ' i) ((stepC τ o).1 i)) ∨
       (r = none ∧ ∃ τ', Threw τ o τ' ∧ ∀ i, RelC (σ' i) (τ' i))) := by
  cases o with
  | rebuild i input n =>
    obtain ⟨b1, b2⟩ := buildT_spec (h i) k room input n ho
    simp only [stepT, stepC]
    generalize (σ i).buildT (sumT T) k room input n = u at b1 b2
    obtain ⟨_ | _, f⟩ := u
    · obtain ⟨c, hc, hd⟩ := b2 rfl
      exact ⟨_, _, rfl, .inr ⟨rfl, _, .rebuild hd, relC_put h hc⟩⟩
    · exact ⟨_, _, rfl, .inl ⟨rfl, relC_put h (b1 rfl)⟩⟩
  | update i p v =>
    have hi := h i
    cases hτ : τ i with
    | built a =>
      rw [hτ] at hi
      obtain ⟨f', r, e, H⟩ := updateT_spec hi k p v
      simp only [stepT, stepC, e, hτ]
      rcases H with ⟨rfl, H⟩ | ⟨rfl, b, H, hb⟩
      · exact ⟨_, _, rfl, .inl ⟨rfl, relC_put h H⟩⟩
      · exact ⟨_, _, rfl, .inr ⟨rfl, _, .update hτ hb, relC_put h (c := .built b) H⟩⟩
    | fresh =>
      rw [hτ] at hi
      have e : (σ i).updateT (sumT T) k p v = (σ i, some (.exc .notBuilt)) := by simp [Tree.updateT, hi.1]
      simp only [stepT, stepC, e, hτ, put_same]
      exact ⟨_, _, rfl, .inl ⟨rfl, h⟩⟩
    | dirty a =>
      rw [hτ] at hi
      have e : (σ i).updateT (sumT T) k p v = (σ i, some (.exc .notBuilt)) := by simp [Tree.updateT, hi.1]
      simp only [stepT, stepC, e, hτ, put_same]
      exact ⟨_, _, rfl, .inl ⟨rfl, h⟩⟩
  | setValue i p v =>
    have hi := h i
    cases hτ : τ i with
    | built a =>
      rw [hτ] at hi
      obtain ⟨f', r, e, H⟩ := setValueT_spec hi k p v
      simp only [stepT, stepC, e, hτ]
      rcases H with ⟨rfl, H⟩ | ⟨rfl, hp, w, b, hw, H, hb⟩
      · exact ⟨_, _, rfl, .inl ⟨rfl, relC_put h H⟩⟩
      · exact ⟨_, _, rfl, .inr ⟨rfl, _, .setValue hτ hp hw hb, relC_put h (c := .built b) H⟩⟩
    | fresh =>
      rw [hτ] at hi
      have e : (σ i).setValueT (sumT T) k p v = (σ i, some (.exc .notBuilt)) := by simp [Tree.setValueT, hi.1]
      simp only [stepT, stepC, e, hτ, put_same]
      exact ⟨_, _, rfl, .inl ⟨rfl, h⟩⟩
    | dirty a =>
      rw [hτ] at hi
      have e : (σ i).setValueT (sumT T) k p v = (σ i, some (.exc .notBuilt)) := by simp [Tree.setValueT, hi.1]
      simp only [stepT, stepC, e, hτ, put_same]
      exact ⟨_, _, rfl, .inl ⟨rfl, h⟩⟩
  | query i x y =>
    have hi := h i
    cases hτ : τ i with
    | built a =>
      rw [hτ] at hi
      simp only [stepT, stepC, hτ]
      rcases queryT_spec hi k x y with e | e
      · rw [e]; exact ⟨_, _, rfl, .inr ⟨rfl, _, .query, h⟩⟩
      · rw [e]; exact ⟨_, _, rfl, .inl ⟨rfl, h⟩⟩
    | fresh =>
      rw [hτ] at hi
      have e : (σ i).queryT (sumT T) k x y = some (.exc .notBuilt) := by simp [Tree.queryT, hi.1]
      simp only [stepT, stepC, e, hτ]
      exact ⟨_, _, rfl, .inl ⟨rfl, h⟩⟩
    | dirty a =>
      rw [hτ] at hi
      have e : (σ i).queryT (sumT T) k x y = some (.exc .notBuilt) := by simp [Tree.queryT, hi.1]
      simp only [stepT, stepC, e, hτ]
      exact ⟨_, _, rfl, .inl ⟨rfl, h⟩⟩
  | resize i size =>
    have hi := h i
    simp only [stepT, stepC]
    refine ⟨_, _, rfl, .inl ⟨rfl, relC_put h ?_⟩⟩
    cases hτ : τ i with
    | built a => rw [hτ] at hi; exact Reps.resize hi size ho
    | fresh =>
      rw [hτ] at hi
      have hi : Unbuilt (σ i) := hi
      show Unbuilt _
      unfold Tree.resize
      rw [hi.2]; simpa using hi
    | dirty a =>
      rw [hτ] at hi
      have hl := hi.2.len
      show _ ∧ _
      unfold Tree.resize
      split
      · exact ⟨hi.1, hi.2.take size ho⟩
      · exact ⟨hi.1, by rw [List.take_of_length_le (by simp only [Op.Valid] at ho; omega)]; exact hi.2⟩
  | copy dst src =>
    simp only [stepT, stepC]
    by_cases e : dst = src
    · subst e
      rw [if_pos rfl, put_same]
      exact ⟨_, _, rfl, .inl ⟨rfl, h⟩⟩
    · rw [if_neg e]
      obtain ⟨c1, c2⟩ := copyT_spec (h dst) (h src) k room
      generalize Tree.copyT k room (σ dst) (σ src) = u at c1 c2
      obtain ⟨_ | _, f⟩ := u
      · obtain ⟨c, hc, hd⟩ := c2 rfl
        exact ⟨_, _, rfl, .inr ⟨rfl, _, .copy hd, relC_put h hc⟩⟩
      · exact ⟨_, _, rfl, .inl ⟨rfl, relC_put h (c1 rfl)⟩⟩
  | move dst src =>
    refine ⟨_, _, rfl, .inl ⟨rfl, ?_⟩⟩
    exact relC_put (relC_put h (h src)) (c := .fresh) ⟨rfl, rfl⟩

theorem runT_spec (os : List (Op T × Nat × Bool)) : ∀ {σ : Store T} {τ : Nat → Cont T}, (∀ i, RelC (σ i) (τ i)) →
    (∀ o ∈ os, o.1.Valid) →
    ∃ σ' rs τ', runT (sumT T) σ os = (σ', rs) ∧ Calls τ (os.map (·.1)) rs τ' ∧ ∀ i, RelC (σ' i) (τ' i) := by
  induction os with
  | nil => intro σ τ h _; exact ⟨σ, [], τ, rfl, .nil, h⟩
  | cons o os ih =>
    intro σ τ h hv
    obtain ⟨o, k, room⟩ := o
    obtain ⟨σ1, r, e, H⟩ := stepT_spec k room h o (hv _ List.mem_cons_self)
    have hv' : ∀ o ∈ os, o.1.Valid := fun o ho => hv o (List.mem_cons_of_mem _ ho)
    rcases H with ⟨rfl, H⟩ | ⟨rfl, τ1, ht, H⟩
    · obtain ⟨σ2, rs, τ2, e2, c, H2⟩ := ih H hv'
      exact ⟨σ2, _, τ2, by simp only [runT, e, e2], .done c, H2⟩
    · obtain ⟨σ2, rs, τ2, e2, c, H2⟩ := ih H hv'
      exact ⟨σ2, _, τ2, by simp only [runT, e, e2], .threw ht c, H2⟩

/-! ### C161 -/

/-- C161, what one would want: a call that throws has no effect. -/
def C161_statement : Prop := ∀ (T : Type) [AddCommGroup T] [DecidableEq T] (σ : Store T) (τ : Nat → Cont T),
    (∀ i, RelC (σ i) (τ i)) → ∀ (o : Op T), o.Valid → ∀ (k : Nat) (room : Bool),
    (stepT (sumT T) k room σ o).2 = none → ∀ i, RelC ((stepT (sumT T) k room σ o).1 i) (τ i)

/-- C161, the part that holds: in every history of calls on any number of trees in which operations throw anywhere, calls that
complete act as on plain lists; an `update` or `set_value` that throws has done nothing, or has added its value at the position and
is missing it at one later position; a query that throws has done nothing; a build or copy assignment that throws leaves some list. -/
theorem C161_history_partial (os : List (Op T × Nat × Bool)) (hv : ∀ o ∈ os, o.1.Valid) :
    ∃ σ' rs τ', runT (sumT T) Store.init os = (σ', rs) ∧ Calls (fun _ => .fresh) (os.map (·.1)) rs τ' := by
  obtain ⟨σ', rs, τ', e, c, -⟩ := runT_spec os (σ := Store.init) (τ := fun _ => .fresh) (fun i => ⟨rfl, rfl⟩) hv
  exact ⟨σ', rs, τ', e, c⟩

example : (runT (sumT Int) Store.init [(.rebuild 0 [1, 2, 3, 4] 4, 99, false), (.update 0 1 10, 1, false), (.query 0 1 4, 99, false),
    (.query 0 1 3, 99, false), (.query 0 1 1, 99, false), (.query 0 2 2, 99, false), (.update 0 2 10, 99, false),
    (.query 0 1 4, 99, false)]).2 =
    [some (.ok .unit), none, some (.ok (.value 10)), some (.ok (.value 6)), some (.ok (.value 11)), some (.ok (.value (-8))),
      some (.ok (.bool true)), some (.ok (.value 20))] := by decide +kernel

theorem sum_modify_take (l : List T) (j n : Nat) (v : T) (hj : j < l.length) :
    ((l.modify j (· + v)).take n).sum = (l.take n).sum + if j < n then v else 0 := by
  induction l generalizing j n with
  | nil => simp at hj
  | cons x l ih =>
    cases n with
    | zero => simp
    | succ n =>
      cases j with
      | zero =>
        simp only [List.modify_zero_cons, List.take_succ_cons, List.sum_cons, Nat.zero_lt_succ, if_true]
        abel
      | succ j =>
        simp only [List.modify_succ_cons, List.take_succ_cons, List.sum_cons, ih j n (by simpa using hj), Nat.add_lt_add_iff_right]
        rw [add_assoc]

/-- C161, what an interrupted update means for sums: with `j` the position at which the value is missing, every query of a range
that holds both of `p` and `j`, or none of them, is as right as if the update had been completed or not begun. -/
theorem C161_sums (a b : List T) (p j : Nat) (v : T) (hp : 1 ≤ p) (hpj : p < j) (hj : j ≤ a.length)
    (h : b.modify (j - 1) (· + v) = a.modify (p - 1) (· + v)) (x y : Nat) (hx : 1 ≤ x) (hxy : x ≤ y) (hy : y ≤ a.length) :
    Spec.rangeSum b x y = Spec.rangeSum a x y + (if x ≤ p ∧ p ≤ y then v else 0) - (if x ≤ j ∧ j ≤ y then v else 0) := by
  have hl : b.length = a.length := by have := congrArg List.length h; simpa using this
  have key : ∀ n, (b.take n).sum + (if j - 1 < n then v else 0) = (a.take n).sum + if p - 1 < n then v else 0 := fun n => by
    rw [← sum_modify_take b (j - 1) n v (by omega), ← sum_modify_take a (p - 1) n v (by omega), h]
  have rs : ∀ l : List T, l.length = a.length → Spec.rangeSum l x y = (l.take y).sum - (l.take (x - 1)).sum := fun l e => by
    unfold Spec.rangeSum Spec.addressed Spec.positions
    rw [e, show max 1 (min (min x y) a.length) = x by omega, show min (max x y) a.length = y by omega]
    have := congrArg List.sum (List.take_append_drop (x - 1) (l.take y))
    rw [List.sum_append, List.take_take, Nat.min_eq_left (by omega)] at this
    rw [← this]
    abel
  rw [rs b hl, rs a rfl]
  have k1 := eq_sub_of_add_eq (key y)
  have k2 := eq_sub_of_add_eq (key (x - 1))
  rw [k1, k2]
  by_cases c1 : x ≤ p <;> by_cases c2 : p ≤ y <;> by_cases c3 : x ≤ j <;> by_cases c4 : j ≤ y <;>
    first
      | omega
      | (simp only [show (p - 1 < y) ↔ (p ≤ y) by omega, show (j - 1 < y) ↔ (j ≤ y) by omega,
          show (p - 1 < x - 1) ↔ ¬ (x ≤ p) by omega, show (j - 1 < x - 1) ↔ ¬ (x ≤ j) by omega, c1, c2, c3, c4, not_true, not_false_iff,
          if_true, if_false, and_self, and_true, true_and, and_false, false_and]; abel)

/-- C161, repairing an interrupted update: there is a position at which the same value has to be added once more; then all cells are
those of the completed update. -/
theorem C161_repair (f : Tree T) (a : List T) (h : Reps (sumT T) f a) (k p : Nat) (v : T)
    (hn : (f.updateT (sumT T) k p v).2 = none) :
    ∃ j, p ≤ j ∧ j ≤ a.length ∧
      (f.updateT (sumT T) k p v).1.update (sumT T) j v = f.update (sumT T) p v := by
  have hl := h.2.len
  unfold Tree.updateT at hn ⊢
  unfold Tree.update
  simp only [h.1, Bool.not_true, Bool.false_eq_true, if_false] at hn ⊢
  by_cases hc : (decide (p < f.processed.length) && (sumT T).truthy v) = true
  · rw [if_pos hc] at hn ⊢
    obtain ⟨-, u2, u3, -⟩ := updateCellsT_spec (sumT T) k f.processed p v
    generalize updateCellsT (sumT T) k f.processed p v = u at hn u2 u3
    obtain ⟨_ | k', cells⟩ := u
    · obtain ⟨j, j1, j2, j3, -, j5⟩ := u2 rfl
      refine ⟨j, j1, by omega, ?_⟩
      simp only at u3 j5 ⊢
      rw [Bool.and_eq_true] at hc
      simp only [u3, j3, hc.1, hc.2, decide_true, Bool.and_self, if_true, Bool.not_true, Bool.false_eq_true, if_false, h.1, j5,
        Bool.not_true, show (!f.built) = false by simp [h.1]]
    · cases hn
  · rw [if_neg hc] at hn; cases hn

example : let f := (Tree.empty : Tree Int).build (sumT Int) [1, 2, 3, 4] 4
    (f.updateT (sumT Int) 2 1 10).2 = none ∧
    (f.updateT (sumT Int) 2 1 10).1.update (sumT Int) 4 10 = f.update (sumT Int) 1 10 := by decide +kernel

/-- C161 fails for updates: with one successful addition, `update(1, 10)` on 1, 2, 3, 4 has changed the elements to 11, -8, 3, 4. -/
theorem C161_counterexample_update :
    let f := (Tree.empty : Tree Int).build (sumT Int) [1, 2, 3, 4] 4
    (f.updateT (sumT Int) 1 1 10).2 = none ∧ Reps (sumT Int) (f.updateT (sumT Int) 1 1 10).1 [11, -8, 3, 4] ∧
    (f.updateT (sumT Int) 1 1 10).1.query (sumT Int) 1 1 = .ok 11 ∧
    (f.updateT (sumT Int) 1 1 10).1.query (sumT Int) 2 2 = .ok (-8) := by
  have e : (((Tree.empty : Tree Int).build (sumT Int) [1, 2, 3, 4] 4).updateT (sumT Int) 1 1 10).1 =
      (Tree.empty : Tree Int).build (sumT Int) [11, -8, 3, 4] 4 := by decide +kernel
  refine ⟨by decide +kernel, ?_, by decide +kernel, by decide +kernel⟩
  rw [e]
  exact build_reps sumT_lawful Tree.empty [11, -8, 3, 4] 4 (.inr ⟨rfl, rfl⟩) (by decide)

/-- C161 fails for builds: the first build throws after one element has been added; the same build is tried again and completes, but
the elements are 2, 1, 1 instead of 1, 1, 1 (`_build` clears the array only of trees that are built). -/
theorem C161_counterexample_retry :
    (runT (sumT Int) Store.init [(.rebuild 0 [1, 1, 1] 3, 3, false), (.rebuild 0 [1, 1, 1] 3, 99, false), (.query 0 1 1, 99, false),
      (.query 0 1 3, 99, false)]).2 = [none, some (.ok .unit), some (.ok (.value 2)), some (.ok (.value 4))] := by decide +kernel

/-- C161, the retry in general: a completed build after builds that did not complete has the right elements if it is the first that
completes with more elements than any before it, or if the object was built; otherwise the remains are added. -/
theorem C161_retry (f : Tree T) (c : Cont T) (h : RelC f c) (input : List T) (n : Nat) (hW : min n input.length + 1 ≤ W) :
    RelC (f.build (sumT T) input n) (c.rebuild (input.take n)) := by
  obtain ⟨cnt, hc⟩ : ∃ k, f.buildT (sumT T) k false input n = (true, f.build (sumT T) input n) := by
    unfold Tree.buildT Tree.build
    simp only
    generalize (if n < input.length then n + 1 else input.length + 1) = size
    by_cases h1 : f.processed.length < size
    · obtain ⟨c1, e1⟩ := buildLoopT_enough (sumT T) (input.take (size - 1)) (List.replicate size (sumT T).null) 1
      refine ⟨c1 + 1, ?_⟩
      simp only [if_pos h1, growT, Bool.false_eq_true, if_false]
      rw [e1 c1 (Nat.le_refl _)]
    · simp only [if_neg h1]
      by_cases h2 : f.built = true
      · obtain ⟨c1, e1⟩ := buildLoopT_enough (sumT T) (input.take (size - 1)) (List.replicate size (sumT T).null) 1
        refine ⟨c1 + size, ?_⟩
        simp only [if_pos h2, overwriteT, List.length_replicate, Nat.le_add_left, if_true, Nat.add_sub_cancel]
        rw [List.drop_of_length_le (by simp; omega), List.append_nil, e1 c1 (Nat.le_refl _)]
      · obtain ⟨c1, e1⟩ := buildLoopT_enough (sumT T) (input.take (size - 1)) f.processed 1
        refine ⟨c1, ?_⟩
        simp only [if_neg h2]
        rw [e1 c1 (Nat.le_refl _)]
  have := (buildT_spec h cnt false input n hW).1 (by rw [hc])
  rw [hc] at this
  exact this

example : Spec.Cont.rebuild (.dirty [5, 7, 9]) [1, 2] = .built [6, 9, (9 : Int)] ∧
    Spec.Cont.rebuild (.dirty [5]) [1, 2] = .built [1, (2 : Int)] := by decide

theorem C161_not : ¬ C161_statement := fun h => by
  have e := h Int (fun _ => (Tree.empty : Tree Int).build (sumT Int) [1, 2, 3, 4] 4) (fun _ => .built [1, 2, 3, 4])
    (fun _ => build_reps sumT_lawful Tree.empty [1, 2, 3, 4] 4 (.inr ⟨rfl, rfl⟩) (by decide)) (.update 0 1 10) trivial 1 false
    (by decide +kernel) 0
  have e2 := C161_counterexample_update.2.1
  have : Reps (sumT Int) (((Tree.empty : Tree Int).build (sumT Int) [1, 2, 3, 4] 4).updateT (sumT Int) 1 1 10).1 [1, 2, 3, 4] := e
  have := e2.2.unique this.2
  revert this
  decide

/-- C161, the calls that complete are those without exceptions, and with enough operations every call completes. -/
theorem C161_same (f : Tree T) (a : List T) (h : Reps (sumT T) f a) (p : Nat) (v : T) (x y : Nat) :
    (∀ k r, (f.updateT (sumT T) k p v).2 = some r → f.update (sumT T) p v = r >>= fun b => .ok ((f.updateT (sumT T) k p v).1, b)) ∧
    (∀ k r, f.queryT (sumT T) k x y = some r → f.query (sumT T) x y = r) ∧
    (∃ c, ∀ k, c ≤ k → (f.updateT (sumT T) k p v).2 ≠ none ∧ f.queryT (sumT T) k x y ≠ none) := by
  refine ⟨fun k r hr => ?_, fun k r hr => ?_, ?_⟩
  · unfold Tree.updateT at hr ⊢
    unfold Tree.update
    simp only [h.1, Bool.not_true, Bool.false_eq_true, if_false] at hr ⊢
    by_cases hc : (decide (p < f.processed.length) && (sumT T).truthy v) = true
    · rw [if_pos hc] at hr ⊢
      rw [if_pos hc]
      obtain ⟨u1, -⟩ := updateCellsT_spec (sumT T) k f.processed p v
      generalize updateCellsT (sumT T) k f.processed p v = u at hr u1
      obtain ⟨_ | k', cells⟩ := u
      · cases hr
      · have := u1 k' rfl
        simp only at this hr ⊢
        cases hr
        rw [this]; rfl
    · rw [if_neg hc] at hr ⊢
      rw [if_neg hc]
      cases hr
      rfl
  · rcases queryT_spec h k x y with e | e
    · rw [e] at hr; cases hr
    · rw [e] at hr; cases hr; exact Reps.query h x y
  · obtain ⟨c1, e1⟩ := updateCellsT_enough (sumT T) f.processed p v
    have e := Reps.query h x y
    unfold Tree.query at e
    simp only [h.1, Bool.not_true, Bool.false_eq_true, if_false] at e
    obtain ⟨c2, hr⟩ := rangeQueryT_runs (sumT T) f.processed _ _ e
    refine ⟨c1 + c2, fun k hk => ⟨?_, ?_⟩⟩
    · unfold Tree.updateT
      simp only [h.1, Bool.not_true, Bool.false_eq_true, if_false, e1 k (by omega)]
      split <;> simp
    · unfold Tree.queryT
      simp only [h.1, Bool.not_true, Bool.false_eq_true, if_false, hr k, if_pos (show c2 ≤ k by omega)]
      simp

end Verif.Fenwick
