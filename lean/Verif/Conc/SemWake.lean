import Verif.Conc.SemProps

/-
C177: the notifications of semaphore_t (semaphore.h:76-94) are enough, without the end of the timed wait.

`notify_one` wakes one of the threads that wait, if there is one.  (The model also has the notification that wakes nobody although
some thread waits: here such steps are excluded by `Heard`.)
-/

namespace Verif.Sem

/-- `P` holds at every step of the schedule. -/
def Along (P : St → Nat × Act → Prop) : St → List (Nat × Act) → Prop
  | _, [] => True
  | s, l :: ls => P s l ∧ ∀ s', step s l = some s' → Along P s' ls

/-- `notify_one` wakes a thread if one waits. -/
def Heard (s : St) (l : Nat × Act) : Prop := l.2 = .notify none → ∀ u, s.pc u ≠ .waiting

/-- No call of `set_available_resources` adds more than one resource. -/
def Gentle (s : St) (l : Nat × Act) : Prop := l.2 = .go → ∀ n g, s.pc l.1 = .setStore n g → n ≤ s.avail + 1

/-- A thread on its way to a free resource, or about to wake such a thread. -/
def Coming (s : St) (u : Nat) : Prop := s.pc u = .woken ∨ s.pc u = .unNotify ∨ s.pc u = .setNotify

/-- C177 (full statement): no thread sleeps beside a free resource for which nobody is coming: if one waits, then as many
threads as there are free resources were woken or are about to be notified. -/
def C177_statement : Prop :=
  ∀ n, n < W → ∀ sched s, exec (init n) sched = some s → Along Heard (init n) sched → s.mtx = none →
    ∀ t, s.pc t = .waiting → ∃ L : List Nat, L.Nodup ∧ (∀ u ∈ L, Coming s u) ∧ s.avail ≤ s.count + L.length

/-! ### The invariant -/

/-- `Coming`, and the parts of a critical section before or after it. -/
def tok : Pc → Bool
  | .woken | .lockLoop | .lockLoad | .lockStore _ | .unRelease true | .unNotify | .setRelease _ true | .setNotify => true
  | _ => false

structure WInv (s : St) : Prop where
  grows : ∀ t n g, s.pc t = .setStore n g → g = decide (n > s.avail)
  toks  : ∃ L : List Nat, L.Nodup ∧ (∀ u ∈ L, tok (s.pc u) = true) ∧ ∀ t, s.pc t = .waiting → s.avail ≤ s.count + L.length

theorem winv_step {s s' : St} {t : Nat} {p : Pc} (h : WInv s) (hpc : ∀ u, s'.pc u = if u = t then p else s.pc u)
    (hg : ∀ n g, p = .setStore n g → g = decide (n > s'.avail))
    (hav : s'.avail = s.avail ∨ ∀ u, u ≠ t → ∀ n g, s.pc u ≠ .setStore n g)
    (hk : s'.avail ≤ s'.count ∨
      (p ≠ .waiting ∧ s'.avail + s.count + (tok (s.pc t)).toNat ≤ s.avail + s'.count + (tok p).toNat)) : WInv s' := by
  obtain ⟨L, hn, hL, hw⟩ := h.toks
  refine ⟨fun u n g hu => ?_, ?_⟩
  · rw [hpc] at hu
    by_cases c : u = t
    · rw [if_pos c] at hu; exact hg n g hu
    · rw [if_neg c] at hu
      rcases hav with e | e
      · rw [e]; exact h.grows u n g hu
      · exact absurd hu (e u c n g)
  rcases hk with hk | ⟨hp, hk⟩
  · exact ⟨[], List.nodup_nil, by simp, fun _ _ => by omega⟩
  have hlen : L.length ≤ (L.erase t).length + (tok (s.pc t)).toNat := by
    by_cases c : t ∈ L
    · rw [List.length_erase_of_mem c, hL t c, Bool.toNat_true]; omega
    · rw [List.erase_of_not_mem c]; omega
  have hmem : ∀ u ∈ L.erase t, u ≠ t ∧ tok (s'.pc u) = true := by
    intro u hu
    rw [hn.mem_erase_iff] at hu
    refine ⟨hu.1, ?_⟩
    rw [hpc, if_neg hu.1]
    exact hL u hu.2
  have hwait : ∀ u, s'.pc u = .waiting → s.avail ≤ s.count + L.length := by
    intro u hu
    rw [hpc] at hu
    by_cases c : u = t
    · rw [if_pos c] at hu; exact absurd hu hp
    · rw [if_neg c] at hu; exact hw u hu
  cases htp : tok p with
  | true =>
    refine ⟨t :: L.erase t, ?_, ?_, ?_⟩
    · exact List.nodup_cons.2 ⟨fun hm => (hmem t hm).1 rfl, hn.erase t⟩
    · intro u hu
      rcases List.mem_cons.1 hu with rfl | hu
      · rw [hpc, if_pos rfl]; exact htp
      · exact (hmem u hu).2
    · intro u hu
      have := hwait u hu
      rw [htp, Bool.toNat_true] at hk
      rw [List.length_cons]
      omega
  | false =>
    refine ⟨L.erase t, hn.erase t, fun u hu => (hmem u hu).2, fun u hu => ?_⟩
    have := hwait u hu
    rw [htp, Bool.toNat_false] at hk
    omega

theorem winv_init (n : Nat) : WInv (init n) := ⟨(fun _ _ _ h => by cases h), [], List.nodup_nil, by simp, (fun _ h => by cases h)⟩

theorem take_pc {s s' : St} {t : Nat} {p : Pc} (h : take s t p = some s') :
    (∀ u, s'.pc u = if u = t then p else s.pc u) ∧ s'.avail = s.avail ∧ s'.count = s.count := by
  unfold take at h
  split at h
  · injection h with h; subst h; exact ⟨fun _ => rfl, rfl, rfl⟩
  · cases h

theorem winv_go {n : Nat} {s s' : St} {a : Abs} (hi : Inv n s a) (h : WInv s) (t : Nat) (hgen : Gentle s (t, .go))
    (hs : go s t = some s') : WInv s' := by
  have hbusy : ∀ p, s.pc t = p → Owns p = true → R p s.count s.avail a := by
    intro p hp ho
    have := hi.busy t ((hi.owner t).1 (by rw [hp]; exact ho))
    rwa [hp] at this
  have hcw := hi.cnt
  have hlw := hi.lim
  unfold go at hs
  cases hp : s.pc t <;> rw [hp] at hs <;> simp only [reduceCtorEq] at hs
  case lockEnter | woken | tryEnter | unEnter | setEnter | cntEnter =>
    obtain ⟨h1, h2, h3⟩ := take_pc hs
    refine winv_step h h1 (fun _ _ e => by cases e) (.inl h2) (.inr ⟨by simp, ?_⟩)
    rw [hp, h2, h3]
    simp [tok]
  case lockStore c =>
    have hr := hbusy _ hp rfl
    simp only [R] at hr
    injection hs with hs
    subst hs
    refine winv_step (t := t) (p := .lockRelease) h (fun _ => rfl) (fun _ _ e => by cases e) (.inl rfl) (.inr ⟨by simp, ?_⟩)
    have : (c + 1) % W = c + 1 := Nat.mod_eq_of_lt (by omega)
    simp only [St.at, hp, tok, Bool.toNat_true, Bool.toNat_false, this]
    omega
  case tryStore c =>
    have hr := hbusy _ hp rfl
    simp only [R] at hr
    injection hs with hs
    subst hs
    refine winv_step (t := t) (p := .tryRelease true) h (fun _ => rfl) (fun _ _ e => by cases e) (.inl rfl) (.inr ⟨by simp, ?_⟩)
    have : (c + 1) % W = c + 1 := Nat.mod_eq_of_lt (by omega)
    simp only [St.at, hp, tok, Bool.toNat_false, this]
    omega
  case unStore c =>
    have hr := hbusy _ hp rfl
    simp only [R] at hr
    injection hs with hs
    subst hs
    refine winv_step (t := t) (p := .unRelease true) h (fun _ => rfl) (fun _ _ e => by cases e) (.inl rfl) (.inr ⟨by simp, ?_⟩)
    have : (c + (W - 1)) % W = c - 1 := pred_mod (by omega) (by omega)
    simp only [St.at, hp, tok, Bool.toNat_true, Bool.toNat_false, this]
    omega
  case lockLoop =>
    injection hs with hs
    by_cases c : s.count ≥ s.avail
    · rw [if_pos c] at hs
      subst hs
      exact winv_step (t := t) (p := .waiting) h (fun _ => rfl) (fun _ _ e => by cases e) (.inl rfl) (.inl c)
    · rw [if_neg c] at hs
      subst hs
      refine winv_step (t := t) (p := .lockLoad) h (fun _ => rfl) (fun _ _ e => by cases e) (.inl rfl) (.inr ⟨by simp, ?_⟩)
      simp [hp, tok, St.at]
  case lockCheck =>
    injection hs with hs
    split at hs
    all_goals subst hs
    · refine winv_step (t := t) (p := .lockThrow) h (fun _ => rfl) (fun _ _ e => by cases e) (.inl rfl) (.inr ⟨by simp, ?_⟩)
      simp [hp, tok, St.at]
    · refine winv_step (t := t) (p := .lockLoop) h (fun _ => rfl) (fun _ _ e => by cases e) (.inl rfl) (.inr ⟨by simp, ?_⟩)
      simp [hp, tok, St.at, St.emit]
  case tryTest =>
    injection hs with hs
    split at hs
    all_goals subst hs
    · refine winv_step (t := t) (p := .tryLoad) h (fun _ => rfl) (fun _ _ e => by cases e) (.inl rfl) (.inr ⟨by simp, ?_⟩)
      simp [hp, tok, St.at]
    · refine winv_step (t := t) (p := .tryRelease false) h (fun _ => rfl) (fun _ _ e => by cases e) (.inl rfl) (.inr ⟨by simp, ?_⟩)
      simp [hp, tok, St.at]
  case unTest =>
    injection hs with hs
    split at hs
    all_goals subst hs
    · refine winv_step (t := t) (p := .unLoad) h (fun _ => rfl) (fun _ _ e => by cases e) (.inl rfl) (.inr ⟨by simp, ?_⟩)
      simp [hp, tok, St.at]
    · refine winv_step (t := t) (p := .unRelease false) h (fun _ => rfl) (fun _ _ e => by cases e) (.inl rfl) (.inr ⟨by simp, ?_⟩)
      simp [hp, tok, St.at]
  case unRelease ok =>
    injection hs with hs
    subst hs
    refine winv_step (t := t) (p := if ok then .unNotify else .idle) h (fun _ => rfl) ?_ (.inl rfl) (.inr ⟨?_, ?_⟩)
    · intro _ _ e; cases ok <;> cases e
    · cases ok <;> simp
    · cases ok <;> simp [hp, tok, St.at, St.emit, St.release]
  case setRelease m g =>
    injection hs with hs
    subst hs
    refine winv_step (t := t) (p := if g then .setNotify else .idle) h (fun _ => rfl) ?_ (.inl rfl) (.inr ⟨?_, ?_⟩)
    · intro _ _ e; cases g <;> cases e
    · cases g <;> simp
    · cases g <;> simp [hp, tok, St.at, St.emit, St.release]
  case setTest m =>
    injection hs with hs
    subst hs
    refine winv_step (t := t) (p := .setStore m (decide (m > s.avail))) h (fun _ => rfl) ?_ (.inl rfl) (.inr ⟨by simp, ?_⟩)
    · intro _ _ e; injection e with e1 e2; subst e1; exact e2.symm
    · simp [hp, tok, St.at]
  case setStore m g =>
    have h1 := h.grows t m g hp
    have h2 := hgen rfl m g hp
    injection hs with hs
    subst hs
    refine winv_step (t := t) (p := .setRelease m g) h (fun _ => rfl) (fun _ _ e => by cases e) (.inr ?_) (.inr ⟨by simp, ?_⟩)
    · intro u hu m' g' hu'
      have e1 := (hi.owner u).1 (by rw [hu']; rfl)
      have e2 := (hi.owner t).1 (by rw [hp]; rfl)
      rw [e1] at e2
      exact hu (Option.some.inj e2)
    · by_cases c : m > s.avail
      · rw [decide_eq_true c] at h1
        subst h1
        simp only [hp, tok, St.at, Bool.toNat_true, Bool.toNat_false]
        omega
      · rw [decide_eq_false c] at h1
        subst h1
        simp only [hp, tok, St.at, Bool.toNat_false]
        omega
  all_goals
    injection hs with hs
    subst hs
    refine winv_step (t := t) (p := _) h (fun _ => rfl) ?_ (.inl rfl) (.inr ⟨?_, ?_⟩)
    · intro _ _ e; cases e
    · simp
    · simp [hp, tok, St.at, St.emit, St.release]

theorem winv_all {n : Nat} {s s' : St} {a : Abs} (hi : Inv n s a) (h : WInv s) (l : Nat × Act) (hh : Heard s l) (hgen : Gentle s l)
    (hs : step s l = some s') : WInv s' := by
  obtain ⟨t, act⟩ := l
  cases act with
  | go => exact winv_go hi h t hgen hs
  | call op =>
    simp only [step] at hs
    split at hs
    · rename_i hp
      have key : ∀ p, tok p = false → (∀ n g, p ≠ .setStore n g) → p ≠ .waiting →
          (∀ u, s'.pc u = if u = t then p else s.pc u) → s'.avail = s.avail → s'.count = s.count → WInv s' := by
        intro p h1 h2 h3 h4 h5 h6
        refine winv_step h h4 (fun n g e => absurd e (h2 n g)) (.inl h5) (.inr ⟨h3, ?_⟩)
        rw [hp, h1, h5, h6]
        simp [tok]
      cases op <;> simp only [enter] at hs
      case setAvail m =>
        split at hs
        · injection hs with hs; subst hs
          exact key (.setEnter m) rfl (by simp) (by simp) (fun _ => rfl) rfl rfl
        · cases hs
      all_goals
        injection hs with hs; subst hs
        exact key _ rfl (by simp) (by simp) (fun _ => rfl) rfl rfl
    · cases hs
  | timeout =>
    simp only [step] at hs
    split at hs
    · rename_i hp
      injection hs with hs
      subst hs
      refine winv_step (t := t) (p := .woken) h (fun _ => rfl) (fun _ _ e => by cases e) (.inl rfl) (.inr ⟨by simp, ?_⟩)
      simp [hp, tok, St.at]
    · cases hs
  | notify u =>
    simp only [step, notify] at hs
    split at hs
    · rename_i hp
      cases u with
      | none =>
        injection hs with hs
        subst hs
        have hno := hh rfl
        refine ⟨fun u m g hu => ?_, [], List.nodup_nil, by simp, fun u hu => ?_⟩
        · simp only [St.at] at hu
          split at hu
          · cases hu
          · exact h.grows u m g hu
        · simp only [St.at] at hu
          split at hu
          · cases hu
          · exact absurd hu (hno u)
      | some u =>
        simp only at hs
        split at hs
        · rename_i hu
          injection hs with hs
          subst hs
          have hne : u ≠ t := fun he => by
            subst he; rw [hu] at hp; rcases hp with hp | hp <;> cases hp
          obtain ⟨L, hn, hL, hw⟩ := h.toks
          have hut : u ∉ L := fun hm => by have := hL u hm; rw [hu] at this; cases this
          refine ⟨fun v m g hv => ?_, u :: L.erase t, ?_, ?_, ?_⟩
          · simp only [St.at] at hv
            split at hv
            · cases hv
            · split at hv
              · cases hv
              · exact h.grows v m g hv
          · exact List.nodup_cons.2 ⟨fun hm => hut (List.mem_of_mem_erase hm), hn.erase t⟩
          · intro v hv
            rcases List.mem_cons.1 hv with rfl | hv
            · simp [St.at, tok]
            · rw [hn.mem_erase_iff] at hv
              by_cases c : v = u
              · simp [St.at, c, tok]
              · simp only [St.at, c, if_false, hv.1]
                exact hL v hv.2
          · intro v hv
            have hsv : s.pc v = .waiting := by
              simp only [St.at] at hv
              split at hv
              · cases hv
              · split at hv
                · cases hv
                · exact hv
            have h2 := hw v hsv
            have h3 : L.length ≤ (L.erase t).length + 1 := by
              by_cases c : t ∈ L
              · rw [List.length_erase_of_mem c]; omega
              · rw [List.erase_of_not_mem c]; omega
            simp only [St.at, List.length_cons]
            omega
        · cases hs
    · cases hs

theorem winv_exec {n : Nat} : ∀ (sched : List (Nat × Act)) {s s' : St} {a : Abs}, Inv n s a → WInv s → Along Heard s sched →
    Along Gentle s sched → exec s sched = some s' → WInv s' := by
  intro sched
  induction sched with
  | nil => intro s s' a _ h _ _ hs; injection hs with hs; subst hs; exact h
  | cons l ls ih =>
    intro s s' a hi h hh hg hs
    simp only [exec] at hs
    cases hst : step s l with
    | none => rw [hst] at hs; cases hs
    | some s1 =>
      rw [hst] at hs
      obtain ⟨a1, h1⟩ := inv_step hi l hst
      exact ih h1 (winv_all hi h l hh.1 hg.1 hst) (hh.2 s1 hst) (hg.2 s1 hst) hs

/-- **C177, partial.** The claim when every call of `set_available_resources` adds at most one resource.
Missing: larger additions, for which it is false (`C177_counterexample`). -/
theorem C177_partial (n : Nat) (hn : n < W) (sched : List (Nat × Act)) (s : St) (h : exec (init n) sched = some s)
    (hh : Along Heard (init n) sched) (hg : Along Gentle (init n) sched) (hm : s.mtx = none) (t : Nat) (ht : s.pc t = .waiting) :
    ∃ L : List Nat, L.Nodup ∧ (∀ u ∈ L, Coming s u) ∧ s.avail ≤ s.count + L.length := by
  obtain ⟨a, hi⟩ := reach_inv hn ⟨sched, h⟩
  obtain ⟨L, h1, h2, h3⟩ := (winv_exec sched (inv_init hn) (winv_init n) hh hg h).toks
  refine ⟨L, h1, fun u hu => ?_, h3 t ht⟩
  have htok := h2 u hu
  have hno : Owns (s.pc u) = false := by
    cases ho : Owns (s.pc u) with
    | false => rfl
    | true => have := (hi.owner u).1 ho; rw [hm] at this; cases this
  unfold Coming
  cases hp : s.pc u <;> rw [hp] at htok hno <;> simp [tok, Owns] at htok hno ⊢

/-- **C177:** so a thread is not left alone: while a resource is free, some thread acquires one without any time-out. -/
theorem C177_served (n : Nat) (hn : n < W) (sched : List (Nat × Act)) (s : St) (h : exec (init n) sched = some s)
    (hh : Along Heard (init n) sched) (hg : Along Gentle (init n) sched) (hm : s.mtx = none) (t : Nat) (ht : s.pc t = .waiting)
    (hc : s.count < s.avail) :
    ∃ (sched' : List (Nat × Act)) (s' : St) (u : Nat), exec s sched' = some s' ∧ (∀ l ∈ sched', l.2 ≠ .timeout) ∧
      s'.log = .lockRet u :: s.log ∧ s'.count = s.count + 1 ∧ s'.mtx = none := by
  obtain ⟨a, hi⟩ := reach_inv hn ⟨sched, h⟩
  obtain ⟨L, h1, h2, h3⟩ := C177_partial n hn sched s h hh hg hm t ht
  have hlw := hi.lim
  have hmod : (s.count + 1) % W = s.count + 1 := Nat.mod_eq_of_lt (by omega)
  have hc' : ¬ s.count ≥ s.avail := by omega
  cases L with
  | nil => simp only [List.length_nil] at h3; omega
  | cons u L =>
    rcases h2 u (by simp) with hu | hu
    · refine ⟨List.replicate 5 (u, .go), ?_⟩
      simp [List.replicate, exec, step, go, take, St.at, St.acquire, hm, hc', St.release, St.emit, hu, hmod]
    · have hut : t ≠ u := by intro e; rw [← e, ht] at hu; rcases hu with hu | hu <;> cases hu
      refine ⟨(u, .notify (some t)) :: List.replicate 5 (t, .go), ?_⟩
      simp [List.replicate, exec, step, notify, go, take, St.at, St.acquire, hm, hc', St.release, St.emit, hu, ht, hmod]

/-- One thread holds the only resource, two wait; then there are three resources, and one thread is notified. -/
def raiseSched : List (Nat × Act) :=
  ((0, .call .lock) :: List.replicate 6 (0, .go)) ++
    [(1, .call .lock), (1, .go), (1, .go), (1, .go), (2, .call .lock), (2, .go), (2, .go), (2, .go)] ++
    [(0, .call (.setAvail 3)), (0, .go), (0, .go), (0, .go), (0, .go), (0, .notify (some 1))] ++ List.replicate 5 (1, .go)

theorem along_heard (sched : List (Nat × Act)) : ∀ s, (∀ l ∈ sched, l.2 ≠ .notify none) → Along Heard s sched := by
  induction sched with
  | nil => intro s _; trivial
  | cons l ls ih =>
    intro s hl
    exact ⟨fun e => absurd e (hl l (by simp)), fun s' _ => ih s' (fun m hm => hl m (by simp [hm]))⟩

theorem step_frame {s s' : St} {t : Nat} {act : Act} (h : step s (t, act) = some s') (u : Nat) (hu : u ≠ t)
    (hn : act ≠ .notify (some u)) : s'.pc u = s.pc u := by
  cases act with
  | go =>
    simp only [step, go] at h
    split at h
    all_goals first
      | (rw [(take_pc h).1 u, if_neg hu])
      | cases h; done
      | (injection h with h
         subst h
         (try split)
         all_goals simp [St.at, St.emit, St.release, hu])
  | call op =>
    simp only [step] at h
    split at h
    · cases op <;> simp only [enter] at h
      case setAvail m =>
        split at h
        · injection h with h; subst h; simp [St.at, hu]
        · cases h
      all_goals
        injection h with h; subst h; simp [St.at, St.emit, hu]
    · cases h
  | timeout =>
    simp only [step] at h
    split at h
    · injection h with h; subst h; simp [St.at, hu]
    · cases h
  | notify v =>
    simp only [step, notify] at h
    split at h
    · cases v with
      | none => injection h with h; subst h; simp [St.at, hu]
      | some v =>
        have huv : u ≠ v := fun e => hn (by rw [e])
        simp only at h
        split at h
        · injection h with h; subst h; simp [St.at, hu, huv]
        · cases h
    · cases h

/-- The thread that is notified. -/
def Act.target : Act → Nat
  | .notify (some u) => u
  | _ => 0

theorem exec_frame (k : Nat) (sched : List (Nat × Act)) : ∀ s s' : St, exec s sched = some s' → (∀ l ∈ sched, l.1 < k) →
    (∀ l ∈ sched, l.2.target < k) → ∀ u, k ≤ u → s'.pc u = s.pc u := by
  induction sched with
  | nil => intro s s' h _ _ u _; injection h with h; subst h; rfl
  | cons l ls ih =>
    intro s s' h h1 h2 u hu
    simp only [exec] at h
    cases hst : step s l with
    | none => rw [hst] at h; cases h
    | some s1 =>
      rw [hst] at h
      rw [ih s1 s' h (fun m hm => h1 m (by simp [hm])) (fun m hm => h2 m (by simp [hm])) u hu]
      obtain ⟨t, act⟩ := l
      have h3 := h1 (t, act) (by simp)
      exact step_frame hst u (by intro e; simp only at h3; omega)
        (fun e => by have := h2 (t, act) (by simp); rw [e] at this; simp only [Act.target] at this; omega)

/-- **C177, counterexample:** two resources are added at once, one of the two waiting threads is notified; the other one sleeps
beside a free resource, and nobody is coming. -/
theorem C177_counterexample : ¬ C177_statement := by
  intro h
  have hk : (exec (init 1) raiseSched).map (fun s => (s.count, s.avail, s.mtx, s.pc 0, s.pc 1, s.pc 2)) =
      some (2, 3, none, .idle, .idle, .waiting) := by decide +kernel
  cases hs : exec (init 1) raiseSched with
  | none => rw [hs] at hk; cases hk
  | some s =>
    rw [hs] at hk
    simp only [Option.map_some, Option.some.injEq, Prod.mk.injEq] at hk
    obtain ⟨k1, k2, k3, k4, k5, k6⟩ := hk
    have hfar := exec_frame 3 raiseSched (init 1) s hs (by decide) (by decide)
    obtain ⟨L, -, hL, hlen⟩ := h 1 (by decide) raiseSched s hs (along_heard _ _ (by decide)) k3 2 k6
    cases L with
    | nil => rw [k1, k2] at hlen; simp at hlen
    | cons u L =>
      have hu := hL u (by simp)
      unfold Coming at hu
      have : s.pc u = .idle ∨ s.pc u = .waiting := by
        rcases Nat.lt_or_ge u 3 with c | c
        · have : u = 0 ∨ u = 1 ∨ u = 2 := by omega
          rcases this with rfl | rfl | rfl
          · exact .inl k4
          · exact .inl k5
          · exact .inr k6
        · exact .inl (hfar u c)
      rcases this with e | e <;> rw [e] at hu <;> simp at hu

/-- Two threads wait for one resource; it is released and the notification goes to thread 2, before which another thread takes the
resource away: thread 2 waits again, and nobody sleeps beside a free resource. -/
def bargeSched : List (Nat × Act) :=
  ((0, .call .lock) :: List.replicate 6 (0, .go)) ++
    [(1, .call .lock), (1, .go), (1, .go), (1, .go), (2, .call .lock), (2, .go), (2, .go), (2, .go)] ++
    ((0, .call .unlock) :: List.replicate 5 (0, .go)) ++ [(0, .notify (some 2))]

example : (exec (init 1) bargeSched).map (fun s => (s.count, s.avail, s.mtx, s.pc 0, s.pc 1, s.pc 2)) =
    some (0, 1, none, .idle, .waiting, .woken) := by decide +kernel

example : (exec (init 1) (bargeSched ++ ((3, .call .tryLock) :: List.replicate 5 (3, .go)) ++ [(2, .go), (2, .go)])).map
    (fun s => (s.count, s.avail, s.mtx, s.pc 1, s.pc 2, s.pc 3)) = some (1, 1, none, .waiting, .waiting, .idle) := by
  decide +kernel

end Verif.Sem
