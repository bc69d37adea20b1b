import Verif.Fenwick.Model

/-! Helper lemmas for the Fenwick tree: the cell invariant and its preservation. -/

namespace Verif.Fenwick

variable {T : Type}

/-- Algebraic laws of the operation used by the lemmas. -/
structure Lawful (t : Transform T) : Prop where
  assoc : ∀ a b c, t.op (t.op a b) c = t.op a (t.op b c)
  comm : ∀ a b, t.op a b = t.op b a
  null_op : ∀ a, t.op t.null a = a

theorem Lawful.op_null {t : Transform T} (h : Lawful t) (a : T) : t.op a t.null = a := by
  rw [h.comm, h.null_op]

/-- Fold of a list with the operation. -/
def F (t : Transform T) (l : List T) : T := l.foldr t.op t.null

@[simp] theorem F_nil (t : Transform T) : F t [] = t.null := rfl
@[simp] theorem F_cons (t : Transform T) (x : T) (l : List T) : F t (x :: l) = t.op x (F t l) := rfl

theorem F_append {t : Transform T} (h : Lawful t) (l m : List T) : F t (l ++ m) = t.op (F t l) (F t m) := by
  induction l with
  | nil => simp [h.null_op]
  | cons x l ih => simp [ih, h.assoc]

theorem F_replicate_null {t : Transform T} (h : Lawful t) (n : Nat) : F t (List.replicate n t.null) = t.null := by
  induction n with
  | zero => rfl
  | succ n ih => simp [List.replicate_succ, ih, h.null_op]

theorem F_modify {t : Transform T} (h : Lawful t) (v : T) (l : List T) (k : Nat) :
    F t (l.modify k (fun x => t.op x v)) = if k < l.length then t.op (F t l) v else F t l := by
  induction l generalizing k with
  | nil => simp
  | cons x l ih =>
    cases k with
    | zero => simp [h.assoc]; rw [h.comm v]
    | succ k =>
      simp only [List.modify_succ_cons, F_cons, ih, List.length_cons, Nat.add_lt_add_iff_right]
      split <;> simp [h.assoc]

/-- Elements at 0-based positions `[lo, hi)`. -/
def slice (a : List T) (lo hi : Nat) : List T := (a.take hi).drop lo

theorem slice_append {a : List T} {lo mid hi : Nat} (h1 : lo ≤ mid) (h2 : mid ≤ hi) :
    slice a lo mid ++ slice a mid hi = slice a lo hi := by
  unfold slice
  apply List.ext_getElem?
  intro i
  by_cases h : i < mid - lo
  · by_cases h' : lo + i < a.length
    · rw [List.getElem?_append_left (by simp; omega)]
      simp only [List.getElem?_drop, List.getElem?_take]
      rw [if_pos (by omega), if_pos (by omega)]
    · rw [List.getElem?_eq_none (by simp; omega), List.getElem?_eq_none (by simp; omega)]
  · by_cases h' : mid ≤ a.length
    · rw [List.getElem?_append_right (by simp; omega)]
      simp only [List.getElem?_drop, List.getElem?_take, List.length_drop, List.length_take]
      have e : mid + (i - (min mid a.length - lo)) = lo + i := by omega
      rw [e]
    · rw [List.getElem?_eq_none (by simp; omega), List.getElem?_eq_none (by simp; omega)]

theorem slice_modify (f : T → T) (a : List T) (k lo hi : Nat) :
    slice (a.modify k f) lo hi = if lo ≤ k ∧ k < hi then (slice a lo hi).modify (k - lo) f else slice a lo hi := by
  unfold slice
  apply List.ext_getElem?
  intro i
  by_cases hc : lo ≤ k ∧ k < hi
  · rw [if_pos hc]
    simp only [List.getElem?_drop, List.getElem?_take, List.getElem?_modify]
    have e : (k - lo = i) = (k = lo + i) := by rw [eq_iff_iff]; omega
    simp only [e]
    split <;> simp
  · rw [if_neg hc]
    simp only [List.getElem?_drop, List.getElem?_take, List.getElem?_modify]
    split
    · have e : ¬ (k = lo + i) := by omega
      simp [e]
    · rfl

theorem modify_append_mid (f : T → T) (l : List T) (y : T) (r : List T) :
    (l ++ y :: r).modify l.length f = l ++ f y :: r := by
  induction l with
  | nil => rfl
  | cons x l ih => simp [ih]

theorem F_slice_modify {t : Transform T} (h : Lawful t) (v : T) (a : List T) (k lo hi : Nat) (hk : k < a.length) :
    F t (slice (a.modify k (fun x => t.op x v)) lo hi) =
      if lo ≤ k ∧ k < hi then t.op (F t (slice a lo hi)) v else F t (slice a lo hi) := by
  rw [slice_modify]
  split
  · rw [F_modify h, if_pos]
    simp only [slice, List.length_drop, List.length_take]; omega
  · rfl

/-- The Fenwick invariant: cell `i` holds the fold of the elements at 1-based positions `(i - low i, i]`. -/
structure Inv (t : Transform T) (cells a : List T) : Prop where
  len : cells.length = a.length + 1
  lenW : cells.length ≤ W
  zero : cells[0]? = some t.null
  cell : ∀ i, 1 ≤ i → i ≤ a.length → cells[i]? = some (F t (slice a (i - low i) i))

theorem updateCells_length (t : Transform T) (cells : List T) (p : Nat) (v : T) :
    (updateCells t cells p v).length = cells.length := by
  fun_induction updateCells t cells p v with
  | case1 cells p h ih => simpa using ih
  | case2 => rfl

theorem updateCells_zero (t : Transform T) (cells : List T) (v : T) : updateCells t cells 0 v = cells := by
  unfold updateCells; simp

theorem updateCells_ge (t : Transform T) (cells : List T) (p : Nat) (v : T) (h : cells.length ≤ p) :
    updateCells t cells p v = cells := by
  unfold updateCells; rw [dif_neg (by omega)]

theorem updateCells_get (t : Transform T) (cells : List T) (p : Nat) (v : T) (hp : 0 < p)
    (hW : cells.length ≤ W) (i : Nat) :
    (updateCells t cells p v)[i]? =
      if p ≤ i ∧ i - low i < p then (cells[i]?).map (fun x => t.op x v) else cells[i]? := by
  fun_induction updateCells t cells p v with
  | case1 cells p h ih =>
    obtain ⟨h0, h1, h2⟩ := h
    have hl := low_pos p h0
    have hle := low_le i
    rcases nextUpdate_cases p h0 h2 with ⟨e, hgt⟩ | ⟨e, he⟩
    · have ih := ih (by omega) (by simpa using hW)
      rw [ih]
      rw [e]
      have g := low_gap p i h0
      have c := low_cover p i h0
      by_cases hip : i = p
      · subst hip
        rw [if_neg (by omega), if_pos (by omega)]
        rw [List.getElem?_set_self h1]
        simp [h1]
      · have hset : (cells.set p (t.op cells[p] v))[i]? = cells[i]? := List.getElem?_set_ne (Ne.symm hip)
        rw [hset]
        by_cases h5 : p ≤ i ∧ i - low i < p
        · rw [if_pos h5, if_pos]
          constructor
          · rcases Nat.lt_or_ge i (p + low p) with h6 | h6
            · have := g (by omega) h6; omega
            · exact h6
          · omega
        · rw [if_neg h5, if_neg]
          intro h6
          apply h5
          exact ⟨by omega, c h6.1 h6.2⟩
    · rw [e, updateCells_zero]
      by_cases hip : i = p
      · subst hip
        rw [if_pos (by omega), List.getElem?_set_self h1]
        simp [h1]
      · rw [List.getElem?_set_ne (Ne.symm hip)]
        split
        · next h5 =>
          rcases Nat.lt_or_ge i cells.length with h6 | h6
          · have := low_gap p i h0 (by omega) (by omega); omega
          · rw [List.getElem?_eq_none h6]; rfl
        · rfl
  | case2 cells p h =>
    split
    · next h5 =>
      rw [List.getElem?_eq_none (by omega)]; rfl
    · rfl

theorem Inv.update {t : Transform T} (ht : Lawful t) {cells a : List T} (h : Inv t cells a) (p : Nat) (v : T)
    (hp : 0 < p) (hpa : p ≤ a.length) :
    Inv t (updateCells t cells p v) (a.modify (p - 1) (fun x => t.op x v)) where
  len := by rw [updateCells_length, List.length_modify, h.len]
  lenW := by rw [updateCells_length]; exact h.lenW
  zero := by rw [updateCells_get t cells p v hp h.lenW, if_neg (by omega), h.zero]
  cell := by
    intro i h1 h2
    rw [List.length_modify] at h2
    rw [updateCells_get t cells p v hp h.lenW, h.cell i h1 h2, F_slice_modify ht v a _ _ _ (by omega)]
    have := low_pos i (by omega)
    by_cases h5 : p ≤ i ∧ i - low i < p
    · rw [if_pos h5, if_pos (by omega)]; rfl
    · rw [if_neg h5, if_neg (by omega)]

theorem Inv.get {t : Transform T} {cells a : List T} (h : Inv t cells a) (i : Nat) (hi : i ≤ a.length) :
    rd cells i = .ok (F t (slice a (i - low i) i)) := by
  unfold rd
  rcases Nat.eq_zero_or_pos i with h0 | h0
  · subst h0; rw [h.zero]; simp [slice]
  · rw [h.cell i h0 hi]

theorem Inv.queryLoop {t : Transform T} (ht : Lawful t) {cells a : List T} (h : Inv t cells a) (i : Nat) (v : T)
    (hi : i ≤ a.length) : queryLoop t cells i v = .ok (t.op (F t (slice a 0 (i - low i))) v) := by
  induction i using Nat.strongRecOn generalizing v with
  | _ i ih =>
    have hl := h.len
    have hW := h.lenW
    have hiW : i < W := by omega
    unfold Verif.Fenwick.queryLoop
    have e : nextQuery i = i - low i := by unfold nextQuery; rw [lsb_eq_low i hiW]
    simp only [e]
    rcases Nat.eq_zero_or_pos i with h0 | h0
    · subst h0; simp [slice, ht.null_op]
    · have hlow := low_pos i h0
      split
      · next hc =>
        rw [h.get (i - low i) (by omega)]
        simp only [Res.bind_ok]
        rw [ih (i - low i) (by omega) _ (by omega)]
        rw [← ht.assoc, ← F_append ht, slice_append (by omega) (by omega)]
      · next hc =>
        have : i - low i = 0 := by omega
        rw [this]; simp [slice, ht.null_op]

theorem Inv.prefixQuery {t : Transform T} (ht : Lawful t) {cells a : List T} (h : Inv t cells a) (i : Nat)
    (hi : i ≤ a.length) : prefixQuery t cells i = .ok (F t (a.take i)) := by
  unfold Verif.Fenwick.prefixQuery
  rw [h.get i hi]
  simp only [Res.bind_ok]
  rw [h.queryLoop ht i _ hi, ← F_append ht, slice_append (by omega) (by omega)]
  simp [slice]

/-- Range query, provided the discarded prefix can be reversed (or is neutral when "falsy"). -/
theorem Inv.rangeQuery {t : Transform T} (ht : Lawful t) {cells a : List T} (h : Inv t cells a) (lo hi : Nat)
    (h1 : lo ≤ hi) (h2 : hi ≤ a.length) (hz : t.truthy t.zero = false)
    (hrev : 1 < lo → (t.truthy (F t (a.take (lo - 1))) = true ∧
        ∀ v, t.rev (t.op (F t (a.take (lo - 1))) v) (F t (a.take (lo - 1))) = .ok v) ∨
      (t.truthy (F t (a.take (lo - 1))) = false ∧ ∀ v, t.op (F t (a.take (lo - 1))) v = v)) :
    rangeQuery t cells lo hi = .ok (F t (slice a (lo - 1) hi)) := by
  unfold Verif.Fenwick.rangeQuery
  by_cases hlo : lo ≤ 1
  · rw [if_pos hlo]
    simp only [Res.bind_ok]
    rw [h.prefixQuery ht hi h2]
    have : lo - 1 = 0 := by omega
    simp [hz, slice, this]
  · rw [if_neg hlo, h.prefixQuery ht (lo - 1) (by omega), h.prefixQuery ht hi h2]
    simp only [Res.bind_ok]
    have e : F t (a.take hi) = t.op (F t (a.take (lo - 1))) (F t (slice a (lo - 1) hi)) := by
      have := slice_append (a := a) (lo := 0) (mid := lo - 1) (hi := hi) (by omega) (by omega)
      have e2 : a.take hi = slice a 0 hi := by simp [slice]
      have e3 : a.take (lo - 1) = slice a 0 (lo - 1) := by simp [slice]
      rw [e2, e3, ← this, F_append ht]
    rcases hrev (by omega) with ⟨h5, h6⟩ | ⟨h5, h6⟩
    · rw [if_pos h5, e, h6]
    · rw [if_neg (by simp [h5]), e, h6]

theorem Inv.init {t : Transform T} (ht : Lawful t) (n : Nat) (hW : n + 1 ≤ W) :
    Inv t (List.replicate (n + 1) t.null) (List.replicate n t.null) where
  len := by simp
  lenW := by simpa using hW
  zero := by simp
  cell := by
    intro i h1 h2
    simp only [List.length_replicate] at h2
    simp only [slice, List.take_replicate, List.drop_replicate, F_replicate_null ht]
    rw [List.getElem?_replicate, if_pos (by omega)]

theorem buildLoop_length (t : Transform T) (cells : List T) (ii : Nat) (l : List T) :
    (buildLoop t cells ii l).length = cells.length := by
  induction l generalizing cells ii with
  | nil => rfl
  | cons x l ih => simp [buildLoop, ih, updateCells_length]

theorem Inv.buildLoop {t : Transform T} (ht : Lawful t) (rest : List T) : ∀ (cells done : List T),
    Inv t cells (done ++ List.replicate rest.length t.null) →
    Inv t (buildLoop t cells (done.length + 1) rest) (done ++ rest) := by
  induction rest with
  | nil => intro cells done h; simpa [Verif.Fenwick.buildLoop] using h
  | cons x rest ih =>
    intro cells done h
    unfold Verif.Fenwick.buildLoop
    have hu := h.update ht (done.length + 1) x (by omega) (by simp)
    have e : (done ++ List.replicate (x :: rest).length t.null).modify (done.length + 1 - 1) (fun y => t.op y x)
        = (done ++ [x]) ++ List.replicate rest.length t.null := by
      simp only [List.length_cons, List.replicate_succ, Nat.add_sub_cancel]
      rw [modify_append_mid]; simp [ht.null_op]
    rw [e] at hu
    have := ih _ (done ++ [x]) hu
    simpa using this

/-- A tree represents the element list `a`. -/
def Reps (t : Transform T) (f : Tree T) (a : List T) : Prop := f.built = true ∧ Inv t f.processed a

/-- Unbuilt trees have an empty array. -/
def Unbuilt (f : Tree T) : Prop := f.built = false ∧ f.processed = []

theorem build_reps {t : Transform T} (ht : Lawful t) (f : Tree T) (input : List T) (n : Nat)
    (hf : f.built = true ∨ Unbuilt f) (hW : min n input.length + 1 ≤ W) :
    Reps t (f.build t input n) (input.take n) := by
  refine ⟨rfl, ?_⟩
  unfold Tree.build
  have hsize : (if n < input.length then n + 1 else input.length + 1) = min n input.length + 1 := by
    split <;> omega
  simp only [hsize, Nat.add_sub_cancel]
  have hc : (if f.processed.length < min n input.length + 1 then List.replicate (min n input.length + 1) t.null
      else if f.built = true then List.replicate (min n input.length + 1) t.null else f.processed) =
      List.replicate (min n input.length + 1) t.null := by
    rcases hf with hf | ⟨hf, hp⟩
    · simp [hf]
    · simp [hp]
  rw [hc]
  have h0 := Inv.init ht (min n input.length) hW
  have e : input.take (min n input.length) = input.take n := List.take_eq_take_min.symm
  rw [e]
  have := Inv.buildLoop ht (input.take n) (List.replicate (min n input.length + 1) t.null) [] (by simpa using h0)
  simpa using this

end Verif.Fenwick
