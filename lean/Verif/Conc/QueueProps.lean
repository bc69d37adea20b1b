import Mathlib.Tactic.ByContra
import Verif.Conc.QueueInv

/-
C93-C99, C109 and C110: the message queue.
-/

namespace Verif.MsgQueue

variable {α : Type}

theorem goodFront : GoodPick (pickFront : Pick α) where
  empty := rfl
  some q hq := by
    cases q with
    | nil => exact absurd rfl hq
    | cons m q => exact ⟨m, q, rfl, List.Perm.refl _⟩

theorem processed_sublist (log : List (Event α)) : (processed log).Sublist (removed log) := by
  induction log with
  | nil => exact List.Sublist.refl _
  | cons e log ih =>
    cases e <;> simp only [processed, removed] <;> try exact ih
    · exact ih.append (List.Sublist.refl _)
    · exact ih.trans (List.sublist_append_left _ _)

theorem processed_removed {log : List (Event α)} (h : discarded log = []) : processed log = removed log := by
  induction log with
  | nil => rfl
  | cons e log ih =>
    cases e <;> simp only [processed, removed, discarded] at h ⊢ <;> try exact ih h
    · rw [ih h]
    · simp at h

/-- The events that concern neither the container nor the callbacks do not matter for the lists. -/
def Event.quiet : Event α → Bool
  | .pushed _ _ | .processed _ | .discarded _ => false
  | _ => true

theorem quiet_lists {e : Event α} (h : e.quiet = true) (l : List (Event α)) :
    received (e :: l) = received l ∧ processed (e :: l) = processed l ∧ discarded (e :: l) = discarded l ∧
      removed (e :: l) = removed l := by
  cases e <;> simp only [Event.quiet, Bool.false_eq_true] at h <;> exact ⟨rfl, rfl, rfl, rfl⟩

/-- What one step can do to container and log. -/
theorem step_effect {pick : Pick α} {s s' : St α} {a : Act α} (hs : step pick s a = some s') :
    (s'.queue = s.queue ∧ (s'.log = s.log ∨ ∃ e, Event.quiet e = true ∧ s'.log = e :: s.log) ∧
      s'.wpc.inflight = s.wpc.inflight) ∨
    (∃ t m, s'.queue = s.queue ++ [m] ∧ s'.log = .pushed t m :: s.log ∧ s'.wpc = s.wpc) ∨
    (∃ m q, pick s.queue = some (m, q) ∧ s'.queue = q ∧ s'.log = .discarded m :: s.log ∧ s'.wpc = s.wpc ∧
      s.wpc.inflight = []) ∨
    (∃ m q, pick s.queue = some (m, q) ∧ s'.queue = q ∧ s'.log = .taken m s.queue :: s.log ∧
      s'.wpc = .popRelease m ∧ s.wpc.inflight = []) ∨
    (∃ m, s'.queue = s.queue ∧ s'.log = .processed m :: s.log ∧ s.wpc = .handle m ∧ s'.wpc = .innerPred) := by
  cases a with
  | start =>
    simp only [step] at hs
    split at hs
    · rename_i hw; injection hs with hs; subst hs; exact .inl ⟨rfl, .inl rfl, by rw [hw]; rfl⟩
    · rename_i hw; injection hs with hs; subst hs; exact .inl ⟨rfl, .inl rfl, by rw [hw]; rfl⟩
    · cases hs
  | wake =>
    simp only [step] at hs
    split at hs
    · rename_i hw; injection hs with hs; subst hs; exact .inl ⟨rfl, .inl rfl, by rw [hw]; rfl⟩
    · cases hs
  | timeout =>
    simp only [step] at hs
    split at hs
    · rename_i hw; injection hs with hs; subst hs; exact .inl ⟨rfl, .inl rfl, by rw [hw]; rfl⟩
    · cases hs
  | call t op =>
    simp only [step] at hs
    split at hs
    · injection hs with hs; subst hs
      cases op <;> exact .inl ⟨rfl, .inl rfl, rfl⟩
    · cases hs
  | client t =>
    simp only [step, client] at hs
    split at hs
    case h_3 m _ =>
      injection hs with hs; subst hs
      exact .inr (.inl ⟨t, m, rfl, rfl, rfl⟩)
    all_goals (try split at hs)
    all_goals (first | cases hs; done | (injection hs with hs; subst hs))
    all_goals (first
      | exact .inl ⟨rfl, .inl rfl, rfl⟩
      | exact .inl ⟨rfl, .inr ⟨_, rfl, rfl⟩, rfl⟩)
  | worker =>
    simp only [step, worker] at hs
    cases hw : s.wpc <;> rw [hw] at hs <;> simp only [reduceCtorEq] at hs
    case clearLoop =>
      split at hs
      · injection hs with hs; subst hs; exact .inl ⟨rfl, .inl rfl, rfl⟩
      · split at hs
        · rename_i m q hq
          injection hs with hs; subst hs
          exact .inr (.inr (.inl ⟨m, q, hq, rfl, rfl, rfl, rfl⟩))
        · injection hs with hs; subst hs; exact .inl ⟨rfl, .inl rfl, rfl⟩
    case popTake =>
      split at hs
      · rename_i m q hq
        injection hs with hs; subst hs
        exact .inr (.inr (.inr (.inl ⟨m, q, hq, rfl, rfl, rfl, rfl⟩)))
      · injection hs with hs; subst hs; exact .inl ⟨rfl, .inl rfl, rfl⟩
    case handle m =>
      injection hs with hs; subst hs
      exact .inr (.inr (.inr (.inr ⟨m, rfl, rfl, rfl, rfl⟩)))
    all_goals (try split at hs)
    all_goals (first | cases hs; done | (injection hs with hs))
    all_goals (try split at hs)
    all_goals (subst hs)
    all_goals (first
      | exact .inl ⟨rfl, .inl rfl, rfl⟩
      | exact .inl ⟨rfl, .inr ⟨_, rfl, rfl⟩, rfl⟩)

/-! ### C93 -/

/-- With a FIFO container: what was taken out, then the message in the hands of the worker, then the container. -/
theorem fifo {s : St α} (h : Reach pickFront s) : removed s.log ++ s.wpc.inflight ++ s.queue = received s.log := by
  refine reach_ind (P := fun s => removed s.log ++ s.wpc.inflight ++ s.queue = received s.log) rfl ?_ h
  intro s a s' hi hs
  rcases step_effect hs with ⟨h1, h2, h3⟩ | ⟨t, m, h1, h2, h3⟩ | ⟨m, q, h0, h1, h2, h3, h4⟩ | ⟨m, q, h0, h1, h2, h3, h4⟩ |
    ⟨m, h1, h2, h3, h4⟩
  · rw [h1, h3]
    rcases h2 with h2 | ⟨e, he, h2⟩
    · rw [h2]; exact hi
    · rw [h2, (quiet_lists he _).1, (quiet_lists he _).2.2.2]; exact hi
  · rw [h1, h2, h3]
    simp only [received, removed]
    rw [← hi, List.append_assoc, List.append_assoc, List.append_assoc]
  · cases hq : s.queue with
    | nil => rw [hq] at h0; cases h0
    | cons x r =>
      rw [hq] at h0 hi
      injection h0 with h0
      injection h0 with e1 e2
      subst e1; subst e2
      rw [h1, h2, h3]
      rw [h4] at hi ⊢
      simp only [received, removed]
      rw [← hi]; simp
  · cases hq : s.queue with
    | nil => rw [hq] at h0; cases h0
    | cons x r =>
      rw [hq] at h0 hi
      injection h0 with h0
      injection h0 with e1 e2
      subst e1; subst e2
      rw [h1, h2, h3]
      rw [h4] at hi
      simp only [received, removed, WPc.inflight]
      rw [← hi]; simp
  · rw [h3] at hi
    rw [h1, h2, h4]
    simp only [received, removed, WPc.inflight] at hi ⊢
    rw [← hi]; simp

/-- C93: without `discard_messages`, the messages handed to `on_new_message` are always a prefix of the messages
received: the rest are the message the worker is about to handle and the contents of the queue, in order. -/
theorem C93_fifo (s : St α) (h : Reach pickFront s) (hd : ∀ t, Event.discardCall t ∉ s.log) :
    received s.log = processed s.log ++ s.wpc.inflight ++ s.queue ∧ processed s.log <+: received s.log := by
  have hi := reach_inv goodFront h
  have h0 : discarded s.log = [] := by
    by_contra hne
    obtain ⟨t, ht⟩ := hi.disc hne
    exact hd t ht
  have := fifo h
  rw [← processed_removed h0] at this
  exact ⟨this.symm, ⟨s.wpc.inflight ++ s.queue, by rw [← this, List.append_assoc]⟩⟩

/-- Two senders, the worker takes the messages in the order of insertion. -/
example :
    let send (t m : Nat) : List (Act Nat) := [.call t (.receive m), .client t, .client t, .client t, .client t]
    (exec pickFront init (send 1 10 ++ send 2 20 ++ [.start] ++ List.replicate 13 .worker ++ send 1 30 ++
      List.replicate 6 .worker)).map (fun s => (processed s.log, received s.log, s.queue)) =
    some ([10, 20], [10, 20, 30], [30]) := by
  decide +kernel

/-! ### C94 -/

/-- The full claim of C94: when the thread ended, every message inserted before the call of `stop` was processed. -/
def C94_statement (α : Type) [DecidableEq α] : Prop :=
  ∀ s : St α, Reach pickFront s → s.wpc = .finished → (∀ t, Event.discardCall t ∉ s.log) →
    ∀ l1 l2 t, s.log = l1 ++ .stopCall t :: l2 → ∀ m ∈ received l2, m ∈ processed s.log

/-- The schedule: a message is sent after the worker found the queue empty, then `stop` is called, then the worker reads
the flag. -/
def lostSched : List (Act Nat) :=
  [.start, .worker, .worker, .worker, .worker, .worker, .timeout, .worker, .worker] ++
  [.call 1 (.receive 10), .client 1, .client 1, .client 1, .client 1, .call 1 .stop, .client 1, .client 1] ++
  [.worker, .worker, .worker]

theorem exec_reach {pick : Pick α} {sched : List (Act α)} {s : St α} (h : exec pick init sched = some s) : Reach pick s :=
  ⟨sched, h⟩

/-- C94 fails: the message is never processed. -/
theorem C94_counterexample : ¬ C94_statement Nat := by
  intro h
  have hk : (exec pickFront init lostSched).map (fun s => (s.wpc, s.log)) =
      some (.finished, [.stopped, .stopCall 1, .pushed 1 10, .sawEmpty, .started]) := by decide +kernel
  cases hs : exec pickFront init lostSched with
  | none => rw [hs] at hk; cases hk
  | some s =>
    rw [hs] at hk
    simp only [Option.map_some, Option.some.injEq, Prod.mk.injEq] at hk
    obtain ⟨hw, hl⟩ := hk
    have hm := h s (exec_reach hs) hw (by intro t ht; rw [hl] at ht; simp at ht)
      [.stopped] [.pushed 1 10, .sawEmpty, .started] 1 (by rw [hl]; rfl) 10 (by simp [received])
    rw [hl] at hm
    simp [processed] at hm

/-- After its last emptiness test the worker processes nothing. -/
def Drained (log : List (Event α)) : Prop := ∃ l1 l2, log = l1 ++ .sawEmpty :: l2 ∧ processed l1 = []

def WPc.ended : WPc α → Bool
  | .readStopped | .onStop | .finished => true
  | _ => false

theorem Drained.cons {log : List (Event α)} {e : Event α} (he : ∀ m, e ≠ .processed m) (h : Drained log) :
    Drained (e :: log) := by
  obtain ⟨l1, l2, h1, h2⟩ := h
  refine ⟨e :: l1, l2, by rw [h1]; rfl, ?_⟩
  cases e <;> simp only [processed] <;> first | exact h2 | exact absurd rfl (he _)

/-- The worker gets to its end only by an emptiness test (or a discard), and only after `stop` was called. -/
structure EInv (s : St α) : Prop where
  drained : s.wpc.ended = true ∨ (s.wpc = .loopTest ∧ s.running = false) → Drained s.log ∨ HasDiscard s.log
  flag    : s.stopped = true → ∃ t, Event.stopCall t ∈ s.log
  stop    : s.wpc = .onStop ∨ s.wpc = .finished ∨ (s.wpc = .loopTest ∧ s.running = false) → s.stopped = true

/-- Steps that keep the worker where it is and only add events of clients. -/
theorem einv_keep {s s' : St α} (h : EInv s) (hw : s'.wpc = s.wpc) (hr : s'.running = s.running)
    (hst : s.stopped = true → s'.stopped = true) (hl : s'.log = s.log ∨ ∃ e, s'.log = e :: s.log ∧ ∀ m, e ≠ .processed m)
    (hf : s'.stopped = true → s.stopped = true ∨ ∃ t, Event.stopCall t ∈ s'.log) : EInv s' := by
  have hmem : ∀ e, e ∈ s.log → e ∈ s'.log := by
    intro e he
    rcases hl with hl | ⟨x, hl, _⟩ <;> rw [hl] <;> simp [he]
  refine ⟨fun hh => ?_, fun hh => ?_, fun hh => ?_⟩
  · rw [hw, hr] at hh
    rcases h.drained hh with hd | ⟨t, ht⟩
    · rcases hl with hl | ⟨e, hl, he⟩
      · rw [hl]; exact .inl hd
      · rw [hl]; exact .inl (hd.cons he)
    · exact .inr ⟨t, hmem _ ht⟩
  · rcases hf hh with hh | hh
    · obtain ⟨t, ht⟩ := h.flag hh
      exact ⟨t, hmem _ ht⟩
    · exact hh
  · rw [hw, hr] at hh
    exact hst (h.stop hh)

theorem einv_client {s s' : St α} (h : EInv s) (t : Nat) (hs : client s t = some s') : EInv s' := by
  unfold client at hs
  split at hs
  case h_6 _ =>
    injection hs with hs; subst hs
    exact einv_keep h rfl rfl (fun _ => rfl) (.inr ⟨_, rfl, fun m => by simp⟩) (fun _ => .inr ⟨t, by simp [St.emit]⟩)
  all_goals (try split at hs)
  all_goals (first | cases hs; done | (injection hs with hs; subst hs))
  all_goals (first
    | exact einv_keep h rfl rfl id (.inl rfl) .inl
    | exact einv_keep h rfl rfl id (.inr ⟨_, rfl, fun m => by simp⟩) .inl)

/-- Steps of the worker to a place that claims nothing. -/
theorem einv_away {s s' : St α} (h : EInv s) (hw : s'.wpc.ended = false) (hl' : s'.wpc ≠ .loopTest ∨ s'.running = true)
    (hst : s'.stopped = s.stopped) (hl : ∀ e, e ∈ s.log → e ∈ s'.log) : EInv s' := by
  refine ⟨fun hh => ?_, fun hh => ?_, fun hh => ?_⟩
  · exfalso
    rcases hh with hh | ⟨h1, h2⟩
    · rw [hw] at hh; cases hh
    · rcases hl' with h3 | h3
      · exact h3 h1
      · rw [h3] at h2; cases h2
  · rw [hst] at hh
    obtain ⟨t, ht⟩ := h.flag hh
    exact ⟨t, hl _ ht⟩
  · exfalso
    rcases hh with hh | hh | ⟨h1, h2⟩
    · rw [hh] at hw; cases hw
    · rw [hh] at hw; cases hw
    · rcases hl' with h3 | h3
      · exact h3 h1
      · rw [h3] at h2; cases h2

theorem einv_worker {pick : Pick α} {s s' : St α} (hi : Inv s) (h : EInv s) (hs : worker pick s = some s') : EInv s' := by
  unfold worker at hs
  cases hw : s.wpc <;> rw [hw] at hs <;> simp only [reduceCtorEq] at hs
  case loopTest =>
    injection hs with hs
    split at hs <;> subst hs
    · exact einv_away h rfl (.inl (by simp [St.w])) rfl (fun _ => id)
    · rename_i hr
      have hr : s.running = false := by simpa using hr
      refine ⟨fun _ => h.drained (.inr ⟨hw, hr⟩), h.flag, fun _ => h.stop (.inr (.inr ⟨hw, hr⟩))⟩
  case clearRelease =>
    injection hs with hs; subst hs
    refine ⟨fun _ => .inr (hi.clear (by rw [hw]; rfl)), h.flag, fun hh => ?_⟩
    simp [St.w] at hh
  case innerPred =>
    injection hs with hs
    split at hs <;> subst hs
    · refine ⟨fun _ => .inl ⟨[], s.log, rfl, rfl⟩, fun hh => ?_, fun hh => ?_⟩
      · obtain ⟨t, ht⟩ := h.flag hh
        exact ⟨t, by simp [St.emit, St.w, ht]⟩
      · simp [St.w, St.emit] at hh
    · exact einv_away h rfl (.inl (by simp [St.w])) rfl (fun _ => id)
  case innerDiscard =>
    injection hs with hs
    split at hs <;> subst hs
    · rename_i hd
      refine ⟨fun _ => .inr (hi.flag hd), h.flag, fun hh => ?_⟩
      simp [St.w] at hh
    · exact einv_away h rfl (.inl (by simp [St.w])) rfl (fun _ => id)
  case setRunning =>
    injection hs with hs; subst hs
    exact einv_away h rfl (.inr rfl) rfl (fun _ => id)
  case readStopped =>
    injection hs with hs; subst hs
    refine ⟨fun _ => h.drained (.inl (by rw [hw]; rfl)), h.flag, fun hh => ?_⟩
    simpa [St.w] using hh
  case onStop =>
    injection hs with hs; subst hs
    refine ⟨fun _ => ?_, fun hh => ?_, fun _ => h.stop (.inl hw)⟩
    · rcases h.drained (.inl (by rw [hw]; rfl)) with hd | hd
      · exact .inl (hd.cons (fun m => by simp))
      · exact .inr (hd.cons _)
    · obtain ⟨t, ht⟩ := h.flag hh
      exact ⟨t, by simp [St.emit, St.w, ht]⟩
  all_goals (try split at hs)
  all_goals (try split at hs)
  all_goals (first | cases hs; done | (injection hs with hs))
  all_goals (try split at hs)
  all_goals (subst hs)
  all_goals (first
    | exact einv_away h rfl (.inl (by simp [St.w, St.emit])) rfl (fun _ he => by simp [St.emit, St.w, he])
    | exact einv_away h rfl (.inr rfl) rfl (fun _ he => by simp [St.emit, St.w, he]))

theorem reach_einv {pick : Pick α} (hp : GoodPick pick) {s : St α} (h : Reach pick s) : Inv s ∧ EInv s := by
  refine reach_ind (P := fun s => Inv s ∧ EInv s) ⟨inv_init, ?_⟩ ?_ h
  · constructor <;> simp [init, WPc.ended]
  · intro s a s' ⟨hi, he⟩ hs
    refine ⟨inv_step hp hi a hs, ?_⟩
    cases a with
    | worker => exact einv_worker hi he hs
    | client t => exact einv_client he t hs
    | start =>
      simp only [step] at hs
      split at hs
      · injection hs with hs; subst hs; exact einv_away he rfl (.inl (by simp [St.w])) rfl (fun _ => id)
      · injection hs with hs; subst hs; exact einv_away he rfl (.inl (by simp [St.w])) rfl (fun _ => id)
      · cases hs
    | wake =>
      simp only [step] at hs
      split at hs
      · injection hs with hs; subst hs; exact einv_away he rfl (.inl (by simp [St.w])) rfl (fun _ => id)
      · cases hs
    | timeout =>
      simp only [step] at hs
      split at hs
      · injection hs with hs; subst hs; exact einv_away he rfl (.inl (by simp [St.w])) rfl (fun _ => id)
      · cases hs
    | call t op =>
      simp only [step] at hs
      split at hs
      · injection hs with hs; subst hs
        cases op <;> exact einv_keep he rfl rfl id (.inl rfl) .inl
      · cases hs

theorem emptyOk_split : ∀ {l1 l2 : List (Event α)}, EmptyOk (l1 ++ .sawEmpty :: l2) →
    (received l2).Perm (processed l2 ++ discarded l2) := by
  intro l1
  induction l1 with
  | nil => intro l2 h; exact h.1
  | cons e l1 ih =>
    intro l2 h
    cases e <;> first | exact ih h | exact ih h.2

theorem processed_append (l1 l2 : List (Event α)) : processed (l1 ++ l2) = processed l2 ++ processed l1 := by
  induction l1 with
  | nil => simp [processed]
  | cons e l1 ih => cases e <;> simp [processed, ih]

theorem received_append (l1 l2 : List (Event α)) : received (l1 ++ l2) = received l2 ++ received l1 := by
  induction l1 with
  | nil => simp [received]
  | cons e l1 ih => cases e <;> simp [received, ih]

/-- C94, the part that holds, for every container: when the thread ended and nothing was discarded, everything
received before the worker's last emptiness test was processed, exactly once; only messages received after that test
are left over.
Missing: messages received after the last emptiness test but before `stop`, see the counterexample. -/
theorem C94_processed_partial (pick : Pick α) (hp : GoodPick pick) (s : St α) (h : Reach pick s)
    (hw : s.wpc = .finished) (hd : ∀ t, Event.discardCall t ∉ s.log) :
    ∃ l1 l2, s.log = l1 ++ .sawEmpty :: l2 ∧ (received l2).Perm (processed s.log) ∧ (received l1).Perm s.queue := by
  obtain ⟨hi, he⟩ := reach_einv hp h
  have hno : ∀ P : Prop, HasDiscard s.log → P := fun _ ⟨t, ht⟩ => absurd ht (hd t)
  have h0 : discarded s.log = [] := by
    by_contra hne
    exact hno _ (hi.disc hne)
  rcases he.drained (.inl (by rw [hw]; rfl)) with ⟨l1, l2, h1, h2⟩ | hh
  · have h3 : processed s.log = processed l2 := by
      rw [h1, processed_append, h2]; simp [processed]
    have h5 : discarded l2 = [] := by
      have : ∀ (l1 l2 : List (Event α)), discarded (l1 ++ l2) = discarded l2 ++ discarded l1 := by
        intro l1 l2
        induction l1 with
        | nil => simp [discarded]
        | cons e l1 ih => cases e <;> simp [discarded, ih]
      rw [h1, this] at h0
      have := (List.append_eq_nil_iff.mp h0).1
      simpa [discarded] using this
    have h4 := hi.empty
    rw [h1] at h4
    have h4 := emptyOk_split h4
    rw [h5, List.append_nil] at h4
    refine ⟨l1, l2, h1, by rw [h3]; exact h4, ?_⟩
    have h6 := hi.perm
    rw [h0, hw, h3] at h6
    rw [show received s.log = received l2 ++ received l1 by rw [h1, received_append]; simp [received]] at h6
    simp only [WPc.inflight, List.append_nil] at h6
    have h7 := (List.Perm.append_right (received l1) h4).symm.trans h6
    exact (List.perm_append_left_iff _).mp h7
  · exact hno _ hh

/-- C94: the worker ends only after `stop` was called. -/
theorem C94_only_stop (pick : Pick α) (hp : GoodPick pick) (s : St α) (h : Reach pick s) (hw : s.wpc = .finished) :
    ∃ t, Event.stopCall t ∈ s.log := by
  obtain ⟨_, he⟩ := reach_einv hp h
  exact he.flag (he.stop (.inr (.inl hw)))

/-! #### Progress -/

/-- Steps to the next emptiness test, apart from the messages on the way. -/
def WPc.rank : WPc α → Nat
  | .checkRunning => 17 | .onStart => 16 | .setRunning => 15 | .readStopped => 15 | .loopTest => 14 | .waitPred => 13
  | .sleeping => 12 | .testDiscard => 11
  | .innerPred => 4 | .innerDiscard => 3 | .popEnter => 2 | .popTake => 1 | .popRelease _ => 6 | .handle _ => 5
  | _ => 0

theorem exec_cons {pick : Pick α} {s s' : St α} {a : Act α} {as : List (Act α)} (h : step pick s a = some s') :
    exec pick s (a :: as) = exec pick s' as := by simp [exec, h]

theorem exec_append {pick : Pick α} (as bs : List (Act α)) : ∀ s : St α,
    exec pick s (as ++ bs) = (exec pick s as).bind fun s' => exec pick s' bs := by
  induction as with
  | nil => intro s; rfl
  | cons a as ih =>
    intro s
    simp only [List.cons_append, exec]
    cases step pick s a with
    | none => rfl
    | some s1 => exact ih s1

/-- Only the worker acts. -/
def ByWorker (sched : List (Act α)) : Prop := ∀ a ∈ sched, a = .worker ∨ a = .timeout

theorem drain (pick : Pick α) (hp : GoodPick pick) : ∀ (n : Nat) (s : St α), s.wpc.rank + 8 * s.queue.length ≤ n →
    Inv s → EInv s → s.wpc ≠ .notStarted → (s.mtx = none ∨ s.mtx = some .worker) → s.stopped = false →
    s.discard = false → s.wpc.clearing = false →
    ∃ sched s', ByWorker sched ∧ exec pick s sched = some s' ∧ s'.queue = [] ∧ s'.wpc = .readStopped ∧
      received s'.log = received s.log ∧ (received s.log).Perm (processed s'.log ++ discarded s'.log) := by
  intro n
  induction n with
  | zero =>
    intro s hn hi he hns hm hst hd hc
    exfalso
    cases hw : s.wpc <;> rw [hw] at hn hns hc <;> simp [WPc.rank, WPc.clearing] at hn hns hc
    · have := hi.alive; rw [hw] at this; cases this
    · have := he.stop (.inl hw); rw [hst] at this; cases this
    · have := he.stop (.inr (.inl hw)); rw [hst] at this; cases this
    · have := hi.alive; rw [hw] at this; cases this
    · have := hi.alive; rw [hw] at this; cases this
  | succ n ih =>
    intro s hn hi he hns hm hst hd hc
    -- one step that decreases the measure, then the rest
    have go : ∀ (a : Act α) (s' : St α), (a = .worker ∨ a = .timeout) → step pick s a = some s' →
        s'.wpc.rank + 8 * s'.queue.length < s.wpc.rank + 8 * s.queue.length → s'.wpc ≠ .notStarted →
        (s'.mtx = none ∨ s'.mtx = some .worker) → s'.stopped = false → s'.discard = false → s'.wpc.clearing = false →
        received s'.log = received s.log → EInv s' →
        ∃ sched s', ByWorker sched ∧ exec pick s sched = some s' ∧ s'.queue = [] ∧ s'.wpc = .readStopped ∧
          received s'.log = received s.log ∧ (received s.log).Perm (processed s'.log ++ discarded s'.log) := by
      intro a s' ha hs h1 h2 h3 h4 h5 h6 h7 h8
      obtain ⟨sched, s2, r1, r2, r3, r4, r5, r6⟩ := ih s' (by omega) (inv_step hp hi a hs) h8 h2 h3 h4 h5 h6
      refine ⟨a :: sched, s2, ?_, by rw [exec_cons hs]; exact r2, r3, r4, by rw [r5, h7], by rw [← h7]; exact r6⟩
      intro b hb
      simp only [List.mem_cons] at hb
      rcases hb with rfl | hb
      · exact ha
      · exact r1 b hb
    have hal := hi.alive
    have hsaw := hi.saw
    have hwo := hi.wown
    cases hw : s.wpc with
    | notStarted => exact absurd hw hns
    | checkRunning =>
      have hr := hi.out (by rw [hw]; rfl)
      have hs : step pick s .worker = some (s.w .onStart) := by simp [step, worker, hw, hr]
      exact go _ _ (.inl rfl) hs (by rw [hw]; simp [St.w, WPc.rank]) (by simp [St.w]) hm hst hd rfl rfl (einv_worker hi he hs)
    | onStart =>
      have hs : step pick s .worker = some ((s.w .setRunning).emit .started) := by simp [step, worker, hw]
      exact go _ _ (.inl rfl) hs (by rw [hw]; simp [St.w, St.emit, WPc.rank]) (by simp [St.w, St.emit]) hm hst hd rfl rfl
        (einv_worker hi he hs)
    | setRunning =>
      have hs : step pick s .worker = some { s.w .loopTest with running := true } := by simp [step, worker, hw]
      exact go _ _ (.inl rfl) hs (by rw [hw]; simp [St.w, WPc.rank]) (by simp [St.w]) hm hst hd rfl rfl (einv_worker hi he hs)
    | loopTest =>
      have hr : s.running = true := by
        by_contra hr
        have hr : s.running = false := by simpa using hr
        have := he.stop (.inr (.inr ⟨hw, hr⟩))
        rw [hst] at this; cases this
      have hs : step pick s .worker = some (s.w .waitPred) := by simp [step, worker, hw, hr]
      exact go _ _ (.inl rfl) hs (by rw [hw]; simp [St.w, WPc.rank]) (by simp [St.w]) hm hst hd rfl rfl (einv_worker hi he hs)
    | waitPred =>
      by_cases hq : s.queue.isEmpty = true
      · have hs : step pick s .worker = some (s.w .sleeping) := by simp [step, worker, hw, hq]
        exact go _ _ (.inl rfl) hs (by rw [hw]; simp [St.w, WPc.rank]) (by simp [St.w]) hm hst hd rfl rfl (einv_worker hi he hs)
      · have hs : step pick s .worker = some (s.w .testDiscard) := by simp [step, worker, hw, hq]
        exact go _ _ (.inl rfl) hs (by rw [hw]; simp [St.w, WPc.rank]) (by simp [St.w]) hm hst hd rfl rfl (einv_worker hi he hs)
    | sleeping =>
      have hs : step pick s .timeout = some (s.w .testDiscard) := by simp [step, hw]
      exact go _ _ (.inr rfl) hs (by rw [hw]; simp [St.w, WPc.rank]) (by simp [St.w]) hm hst hd rfl rfl
        (einv_away he rfl (.inl (by simp [St.w])) rfl (fun _ => id))
    | testDiscard =>
      have hs : step pick s .worker = some (s.w .innerPred) := by simp [step, worker, hw, hd]
      exact go _ _ (.inl rfl) hs (by rw [hw]; simp [St.w, WPc.rank]) (by simp [St.w]) hm hst hd rfl rfl (einv_worker hi he hs)
    | clearFlag => rw [hw] at hc; cases hc
    | clearEnter => rw [hw] at hc; cases hc
    | clearLoop => rw [hw] at hc; cases hc
    | clearRelease => rw [hw] at hc; cases hc
    | innerPred =>
      by_cases hq : s.queue.isEmpty = true
      · have hs : step pick s .worker = some ((s.w .readStopped).emit .sawEmpty) := by simp [step, worker, hw, hq]
        refine ⟨[.worker], (s.w .readStopped).emit .sawEmpty, by intro a ha; simp at ha; exact .inl ha, by rw [exec_cons hs]; rfl, by simpa [St.w, St.emit] using hq, rfl, rfl, ?_⟩
        have h1 := hi.perm
        rw [hw, show s.queue = [] by simpa using hq] at h1
        simpa [WPc.inflight, St.w, St.emit, processed, discarded] using h1
      · have hs : step pick s .worker = some (s.w .innerDiscard) := by simp [step, worker, hw, hq]
        exact go _ _ (.inl rfl) hs (by rw [hw]; simp [St.w, WPc.rank]) (by simp [St.w]) hm hst hd rfl rfl (einv_worker hi he hs)
    | innerDiscard =>
      have hs : step pick s .worker = some (s.w .popEnter) := by simp [step, worker, hw, hd]
      exact go _ _ (.inl rfl) hs (by rw [hw]; simp [St.w, WPc.rank]) (by simp [St.w]) hm hst hd rfl rfl (einv_worker hi he hs)
    | popEnter =>
      have hm : s.mtx = none := by
        rcases hm with hm | hm
        · exact hm
        · have := hwo.mpr hm; rw [hw] at this; cases this
      have hs : step pick s .worker = some { s.w .popTake with mtx := some .worker } := by simp [step, worker, hw, hm]
      exact go _ _ (.inl rfl) hs (by rw [hw]; simp [St.w, WPc.rank]) (by simp [St.w]) (.inr rfl) hst hd rfl rfl
        (einv_worker hi he hs)
    | popTake =>
      obtain ⟨m, q, e1, e2⟩ := hp.some s.queue (hsaw (by rw [hw]; rfl))
      have hlen := e2.length_eq
      simp only [List.length_cons] at hlen
      have hs : step pick s .worker = some ({ s.w (.popRelease m) with queue := q }.emit (.taken m s.queue)) := by
        simp [step, worker, hw, e1]
      exact go _ _ (.inl rfl) hs (by rw [hw]; simp only [St.w, St.emit, WPc.rank]; omega) (by simp [St.w, St.emit]) hm hst hd
        rfl rfl (einv_worker hi he hs)
    | popRelease m =>
      have hs : step pick s .worker = some { s.w (.handle m) with mtx := none } := by simp [step, worker, hw]
      exact go _ _ (.inl rfl) hs (by rw [hw]; simp [St.w, WPc.rank]) (by simp [St.w]) (.inl rfl) hst hd rfl rfl
        (einv_worker hi he hs)
    | handle m =>
      have hs : step pick s .worker = some ((s.w .innerPred).emit (.processed m)) := by simp [step, worker, hw]
      exact go _ _ (.inl rfl) hs (by rw [hw]; simp [St.w, St.emit, WPc.rank]) (by simp [St.w, St.emit]) hm hst hd rfl rfl
        (einv_worker hi he hs)
    | readStopped =>
      have hs : step pick s .worker = some { s.w .loopTest with running := !s.stopped } := by simp [step, worker, hw]
      exact go _ _ (.inl rfl) hs (by rw [hw]; simp [St.w, WPc.rank]) (by simp [St.w]) hm hst hd rfl rfl (einv_worker hi he hs)
    | onStop => have := he.stop (.inl hw); rw [hst] at this; cases this
    | finished => have := he.stop (.inr (.inl hw)); rw [hst] at this; cases this
    | throwing => rw [hw] at hal; cases hal
    | threw => rw [hw] at hal; cases hal
    | ub => rw [hw] at hal; cases hal

/-- C94: as long as `stop` was not called and nothing is to be discarded, the started worker, by its own steps and
timeouts alone, processes every message received so far; the mutex of the queue is all it can wait for. -/
theorem C94_progress (pick : Pick α) (hp : GoodPick pick) (s : St α) (h : Reach pick s) (hns : s.wpc ≠ .notStarted)
    (hm : s.mtx = none ∨ s.mtx = some .worker) (hst : s.stopped = false) (hd : ∀ t, Event.discardCall t ∉ s.log) :
    ∃ sched s', ByWorker sched ∧ exec pick s sched = some s' ∧ s'.queue = [] ∧
      (received s.log).Perm (processed s'.log) := by
  obtain ⟨hi, he⟩ := reach_einv hp h
  have hno : ¬ HasDiscard s.log := fun ⟨t, ht⟩ => hd t ht
  have hdis : s.discard = false := by
    cases hx : s.discard with
    | false => rfl
    | true => exact absurd (hi.flag hx) hno
  have hcl : s.wpc.clearing = false := by
    cases hx : s.wpc.clearing with
    | false => rfl
    | true => exact absurd (hi.clear hx) hno
  obtain ⟨sched, s', r1, r2, r3, _, r5, r6⟩ := drain pick hp _ s (Nat.le_refl _) hi he hns hm hst hdis hcl
  refine ⟨sched, s', r1, r2, r3, ?_⟩
  -- the worker's own steps never log a call of `discard_messages`
  have hkeep : ∀ (sched : List (Act α)) (s s' : St α), ByWorker sched → exec pick s sched = some s' →
      (∀ t, Event.discardCall t ∉ s.log) → ∀ t, Event.discardCall t ∉ s'.log := by
    intro sched
    induction sched with
    | nil => intro s s' _ hs hn; injection hs with hs; subst hs; exact hn
    | cons a as ih =>
      intro s s' hb hs hn
      cases h1 : step pick s a with
      | none => simp [exec, h1] at hs
      | some s1 =>
        rw [exec_cons h1] at hs
        refine ih s1 s' (fun b hb' => hb b (by simp [hb'])) hs ?_
        intro t ht
        rcases step_effect h1 with ⟨_, h2, _⟩ | ⟨_, _, _, h2, _⟩ | ⟨_, _, _, _, h2, _⟩ | ⟨_, _, _, _, h2, _⟩ | ⟨_, _, h2, _⟩
        · rcases h2 with h2 | ⟨e, _, h2⟩
          · rw [h2] at ht; exact hn t ht
          · rw [h2] at ht
            rcases List.mem_cons.mp ht with rfl | ht
            · rcases hb a (by simp) with rfl | rfl
              · simp only [step, worker] at h1
                cases hw : s.wpc <;> rw [hw] at h1 <;> simp only [reduceCtorEq] at h1
                all_goals (try split at h1)
                all_goals (try split at h1)
                all_goals (first | cases h1; done | (injection h1 with h1))
                all_goals (try split at h1)
                all_goals (subst h1)
                all_goals (first | cases h2; done | (have := congrArg List.length h2; simp [St.w] at this))
              · simp only [step] at h1
                split at h1
                · injection h1 with h1; subst h1
                  have := congrArg List.length h2
                  simp [St.w] at this
                · cases h1
            · exact hn t ht
        all_goals
          rw [h2] at ht
          rcases List.mem_cons.mp ht with ht | ht
          · cases ht
          · exact hn t ht
  have h0 : discarded s'.log = [] := by
    by_contra hne
    obtain ⟨sc, hsc⟩ := h
    have hr : Reach pick s' := ⟨sc ++ sched, by rw [exec_append, hsc]; exact r2⟩
    obtain ⟨t, ht⟩ := (reach_inv hp hr).disc hne
    exact hkeep sched s s' r1 r2 hd t ht
  rw [h0, List.append_nil] at r6
  exact r6

/-! ### C95 -/

/-- C95: for every container, every received message is, exactly once, processed, discarded, in the hands of the worker
or still queued. -/
theorem C95_partition (pick : Pick α) (hp : GoodPick pick) (s : St α) (h : Reach pick s) :
    (received s.log).Perm (processed s.log ++ discarded s.log ++ s.wpc.inflight ++ s.queue) :=
  (reach_inv hp h).perm

/-- C95: with a FIFO container the processed messages are a subsequence of the received ones, in order. -/
theorem C95_order (s : St α) (h : Reach pickFront s) : (processed s.log).Sublist (received s.log) := by
  rw [← fifo h, List.append_assoc]
  exact (processed_sublist s.log).trans (List.sublist_append_left _ _)

/-- C95: nothing is discarded unless `discard_messages` was called. -/
theorem C95_only_asked (pick : Pick α) (hp : GoodPick pick) (s : St α) (h : Reach pick s)
    (hd : discarded s.log ≠ []) : ∃ t, Event.discardCall t ∈ s.log :=
  (reach_inv hp h).disc hd

/-- A discard between two messages. -/
example :
    let send (m : Nat) : List (Act Nat) := [.call 1 (.receive m), .client 1, .client 1, .client 1, .client 1]
    (exec pickFront init (send 10 ++ [.start] ++ List.replicate 13 .worker ++ send 20 ++
      [.call 2 .discard, .client 2] ++ List.replicate 9 .worker)).map
      (fun s => (processed s.log, discarded s.log, s.queue)) = some ([10], [20], []) := by
  decide +kernel

/-! ### C96 -/

/-- C96: the worker never takes a message from an empty container. -/
theorem C96_never_empty (pick : Pick α) (hp : GoodPick pick) (s : St α) (h : Reach pick s) :
    s.wpc ≠ .ub ∧ (s.wpc = .popTake → s.queue ≠ []) := by
  have hi := reach_inv hp h
  refine ⟨fun hw => ?_, fun hw => hi.saw (by rw [hw]; rfl)⟩
  have := hi.alive
  rw [hw] at this
  cases this

/-! ### C97 -/

/-- The life of the worker according to the log: between `on_start` and `on_stop` or not; `none` when a message was handled
outside, or the callbacks did not alternate. -/
def life : List (Event α) → Option Bool
  | [] => some false
  | .started :: l => if life l = some false then some true else none
  | .processed _ :: l => if life l = some true then some true else none
  | .stopped :: l => if life l = some true then some false else none
  | _ :: l => life l

def WPc.active : WPc α → Bool
  | .notStarted | .checkRunning | .throwing | .onStart | .finished | .threw | .ub => false
  | _ => true

theorem life_cons {e : Event α} {l : List (Event α)} (h1 : e ≠ .started) (h2 : ∀ m, e ≠ .processed m) (h3 : e ≠ .stopped) :
    life (e :: l) = life l := by
  cases e <;> first | rfl | exact absurd rfl h1 | exact absurd rfl (h2 _) | exact absurd rfl h3

/-- C97: in every run, `on_start` is called once, before any message is handled, and `on_stop` once, after the last one; a
new run begins only after the previous one ended. -/
theorem C97_lifecycle (pick : Pick α) (hp : GoodPick pick) (s : St α) (h : Reach pick s) :
    life s.log = some s.wpc.active := by
  have key : Inv s ∧ life s.log = some s.wpc.active := by
    refine reach_ind (P := fun s => Inv s ∧ life s.log = some s.wpc.active) ⟨inv_init, rfl⟩ ?_ h
    intro s a s' ⟨hi, hl⟩ hs
    refine ⟨inv_step hp hi a hs, ?_⟩
    cases a with
    | client t =>
      simp only [step, client] at hs
      split at hs
      all_goals (try split at hs)
      all_goals (first | cases hs; done | (injection hs with hs; subst hs))
      all_goals (simpa [St.c, St.emit, life] using hl)
    | start =>
      simp only [step] at hs
      split at hs
      · rename_i hw; injection hs with hs; subst hs; rw [hw] at hl; exact hl
      · rename_i hw; injection hs with hs; subst hs; rw [hw] at hl; exact hl
      · cases hs
    | wake =>
      simp only [step] at hs
      split at hs
      · rename_i hw; injection hs with hs; subst hs; rw [hw] at hl; exact hl
      · cases hs
    | timeout =>
      simp only [step] at hs
      split at hs
      · rename_i hw; injection hs with hs; subst hs; rw [hw] at hl; exact hl
      · cases hs
    | call t op =>
      simp only [step] at hs
      split at hs
      · injection hs with hs; subst hs
        cases op <;> exact hl
      · cases hs
    | worker =>
      have hal := hi.alive
      have hsaw := hi.saw
      simp only [step, worker] at hs
      cases hw : s.wpc <;> rw [hw] at hs hl hal hsaw <;> simp only [WPc.dead, reduceCtorEq] at hs hal
      case checkRunning =>
        have hr := hi.out (by rw [hw]; rfl)
        simp only [hr, Bool.false_eq_true, if_false, Option.some.injEq] at hs
        subst hs; exact hl
      case popTake =>
        obtain ⟨m, q, e1, _⟩ := hp.some s.queue (hsaw rfl)
        rw [e1] at hs
        injection hs with hs; subst hs
        simpa [St.w, St.emit, life, WPc.active] using hl
      case clearLoop =>
        split at hs
        · injection hs with hs; subst hs; exact hl
        · rename_i hne
          obtain ⟨m, q, e1, _⟩ := hp.some s.queue (by simpa using hne)
          rw [e1] at hs
          injection hs with hs; subst hs
          simpa [St.w, St.emit, life, WPc.active] using hl
      all_goals (try split at hs)
      all_goals (first | cases hs; done | (injection hs with hs))
      all_goals (try split at hs)
      all_goals (subst hs)
      all_goals (simp only [WPc.active] at hl; simp [St.w, St.emit, life, WPc.active, hl])
  exact key.2

/-- C97: a worker never finds the queue already running, so it never throws. -/
theorem C97_never_throws (pick : Pick α) (hp : GoodPick pick) (s : St α) (h : Reach pick s) :
    s.wpc ≠ .throwing ∧ s.wpc ≠ .threw := by
  have := (reach_inv hp h).alive
  constructor <;> intro hw <;> rw [hw] at this <;> cases this

/-- C97: `run()` entered while the queue is running throws before any callback. -/
theorem C97_twice (pick : Pick α) (s : St α) (hw : s.wpc = .checkRunning) (hr : s.running = true) :
    ∃ s', exec pick s [.worker, .worker] = some s' ∧ s'.wpc = .threw ∧ s'.log = s.log ∧ s'.queue = s.queue :=
  ⟨(s.w .throwing).w .threw, by simp [exec, step, worker, hw, hr, St.w], rfl, rfl, rfl⟩

/-! ### C98 -/

/-- What left the container for `on_new_message`, in order. -/
def taken : List (Event α) → List α
  | [] => []
  | .taken m _ :: l => taken l ++ [m]
  | _ :: l => taken l

/-- C98: with a heap ordered by `lt`, the message taken at any moment is not less than any of those then in the container,
i.e. of those received and neither processed nor discarded before. -/
theorem C98_greatest (lt : α → α → Prop) (pick : Pick α) (hp : HeapPick lt pick) (s : St α) (h : Reach pick s)
    (l1 l2 : List (Event α)) (m : α) (q : List α) (hl : s.log = l1 ++ .taken m q :: l2) :
    m ∈ q ∧ (∀ x ∈ q, ¬ lt m x) ∧ (received l2).Perm (processed l2 ++ discarded l2 ++ q) := by
  have key : ∀ s, Reach pick s → Inv s ∧ ∀ (l1 l2 : List (Event α)) (m : α) (q : List α), s.log = l1 ++ .taken m q :: l2 →
      m ∈ q ∧ (∀ x ∈ q, ¬ lt m x) ∧ (received l2).Perm (processed l2 ++ discarded l2 ++ q) := by
    intro s h
    refine reach_ind (P := fun s => Inv s ∧ ∀ (l1 l2 : List (Event α)) (m : α) (q : List α),
      s.log = l1 ++ .taken m q :: l2 → m ∈ q ∧ (∀ x ∈ q, ¬ lt m x) ∧ (received l2).Perm (processed l2 ++ discarded l2 ++ q))
      ⟨inv_init, ?_⟩ ?_ h
    · intro l1 l2 m q hl; cases l1 <;> cases hl
    · intro s a s' ⟨hi, hh⟩ hs
      refine ⟨inv_step hp.toGoodPick hi a hs, ?_⟩
      have other : ∀ e : Event α, (∀ m q, e ≠ .taken m q) → s'.log = e :: s.log →
          ∀ (l1 l2 : List (Event α)) (m : α) (q : List α), s'.log = l1 ++ .taken m q :: l2 →
          m ∈ q ∧ (∀ x ∈ q, ¬ lt m x) ∧ (received l2).Perm (processed l2 ++ discarded l2 ++ q) := by
        intro e he hl l1 l2 m q hl'
        rw [hl] at hl'
        cases l1 with
        | nil => injection hl' with e1 e2; exact absurd e1 (he m q)
        | cons x l1 => injection hl' with e1 e2; exact hh l1 l2 m q e2
      rcases step_effect hs with ⟨h1, h2, h3⟩ | ⟨t, m, h1, h2, h3⟩ | ⟨m, q, h0, h1, h2, h3, h4⟩ | ⟨m, q, h0, h1, h2, h3, h4⟩ |
        ⟨m, h1, h2, h3, h4⟩
      · rcases h2 with h2 | ⟨e, he, h2⟩
        · rw [h2]; exact hh
        · by_cases ht : ∀ m q, e ≠ .taken m q
          · exact other e ht h2
          · exfalso
            have ht : ∃ m q, e = .taken m q := by
              by_contra hn
              exact ht fun m q he => hn ⟨m, q, he⟩
            obtain ⟨m, q, rfl⟩ := ht
            -- only `popTake` emits it, and it changes what is in flight
            cases a with
            | worker =>
              simp only [step, worker] at hs
              cases hw : s.wpc <;> rw [hw] at hs h3 <;> simp only [reduceCtorEq] at hs
              case popTake =>
                obtain ⟨m', q', e1, _⟩ := hp.some s.queue (hi.saw (by rw [hw]; rfl))
                rw [e1] at hs
                injection hs with hs; subst hs
                cases h3
              case clearLoop =>
                split at hs
                · injection hs with hs; subst hs
                  have := congrArg List.length h2
                  simp [St.w] at this
                · rename_i hne
                  obtain ⟨m', q', e1, _⟩ := hp.some s.queue (by simpa using hne)
                  rw [e1] at hs
                  injection hs with hs; subst hs
                  cases h2
              all_goals (try split at hs)
              all_goals (first | cases hs; done | (injection hs with hs))
              all_goals (try split at hs)
              all_goals (subst hs)
              all_goals (first | cases h2; done | (have := congrArg List.length h2; simp [St.w, St.emit] at this))
            | client t =>
              simp only [step, client] at hs
              split at hs
              all_goals (try split at hs)
              all_goals (first | cases hs; done | (injection hs with hs; subst hs))
              all_goals (first | cases h2; done | (have := congrArg List.length h2; simp [St.c, St.emit] at this))
            | call t op =>
              simp only [step] at hs
              split at hs
              · injection hs with hs; subst hs
                have := congrArg List.length h2
                cases op <;> simp [enter, St.c] at this
              · cases hs
            | start =>
              simp only [step] at hs
              split at hs
              · injection hs with hs; subst hs; have := congrArg List.length h2; simp [St.w] at this
              · injection hs with hs; subst hs; have := congrArg List.length h2; simp [St.w] at this
              · cases hs
            | wake =>
              simp only [step] at hs
              split at hs
              · injection hs with hs; subst hs; have := congrArg List.length h2; simp [St.w] at this
              · cases hs
            | timeout =>
              simp only [step] at hs
              split at hs
              · injection hs with hs; subst hs; have := congrArg List.length h2; simp [St.w] at this
              · cases hs
      · exact other _ (by simp) h2
      · exact other _ (by simp) h2
      · intro l1 l2 m' q' hl'
        rw [h2] at hl'
        cases l1 with
        | nil =>
          injection hl' with e1 e2
          injection e1 with e1 e3
          subst e1; subst e2; subst e3
          have hne : s.queue ≠ [] := fun he => by rw [he, hp.empty] at h0; cases h0
          obtain ⟨m2, q2, e4, e5⟩ := hp.some s.queue hne
          rw [h0] at e4
          injection e4 with e4
          injection e4 with e4 e6
          subst e4; subst e6
          refine ⟨e5.mem_iff.mpr (by simp), hp.greatest _ _ _ h0, ?_⟩
          have := hi.perm
          rw [h4] at this
          simpa using this
        | cons x l1 => injection hl' with e1 e2; exact hh l1 l2 m' q' e2
      · exact other _ (by simp) h2
  exact (key s h).2 l1 l2 m q hl

/-- C98: what is processed is what was taken, in that order; at most the last one taken is still in the hands of the worker. -/
theorem C98_taken (pick : Pick α) (hp : GoodPick pick) (s : St α) (h : Reach pick s) :
    taken s.log = processed s.log ++ s.wpc.inflight := by
  have key : Inv s ∧ taken s.log = processed s.log ++ s.wpc.inflight := by
    refine reach_ind (P := fun s => Inv s ∧ taken s.log = processed s.log ++ s.wpc.inflight) ⟨inv_init, rfl⟩ ?_ h
    intro s a s' ⟨hi, hl⟩ hs
    refine ⟨inv_step hp hi a hs, ?_⟩
    cases a with
    | client t =>
      simp only [step, client] at hs
      split at hs
      all_goals (try split at hs)
      all_goals (first | cases hs; done | (injection hs with hs; subst hs))
      all_goals (simpa [St.c, St.emit, taken, processed] using hl)
    | start =>
      simp only [step] at hs
      split at hs
      · rename_i hw; injection hs with hs; subst hs; rw [hw] at hl; exact hl
      · rename_i hw; injection hs with hs; subst hs; rw [hw] at hl; exact hl
      · cases hs
    | wake =>
      simp only [step] at hs
      split at hs
      · rename_i hw; injection hs with hs; subst hs; rw [hw] at hl; exact hl
      · cases hs
    | timeout =>
      simp only [step] at hs
      split at hs
      · rename_i hw; injection hs with hs; subst hs; rw [hw] at hl; exact hl
      · cases hs
    | call t op =>
      simp only [step] at hs
      split at hs
      · injection hs with hs; subst hs
        cases op <;> exact hl
      · cases hs
    | worker =>
      have hsaw := hi.saw
      simp only [step, worker] at hs
      cases hw : s.wpc <;> rw [hw] at hs hl hsaw <;> simp only [reduceCtorEq] at hs
      case popTake =>
        obtain ⟨m, q, e1, _⟩ := hp.some s.queue (hsaw rfl)
        rw [e1] at hs
        injection hs with hs; subst hs
        simpa [St.w, St.emit, taken, processed, WPc.inflight] using hl
      case clearLoop =>
        split at hs
        · injection hs with hs; subst hs; exact hl
        · rename_i hne
          obtain ⟨m, q, e1, _⟩ := hp.some s.queue (by simpa using hne)
          rw [e1] at hs
          injection hs with hs; subst hs
          simpa [St.w, St.emit, taken, processed, WPc.inflight] using hl
      all_goals (try split at hs)
      all_goals (first | cases hs; done | (injection hs with hs))
      all_goals (try split at hs)
      all_goals (subst hs)
      all_goals (simp only [WPc.inflight, List.append_nil] at hl; simp [St.w, St.emit, taken, processed, WPc.inflight, hl])
  exact key.2

/-- A heap on numbers that takes the first of the greatest. -/
def pickMax : Pick Nat := fun q =>
  match q.max? with
  | none => none
  | some m => some (m, q.erase m)

theorem pickMax_heap : HeapPick (fun a b : Nat => a < b) pickMax where
  empty := rfl
  some q hq := by
    unfold pickMax
    cases hm : q.max? with
    | none => exact absurd (List.max?_eq_none_iff.mp hm) hq
    | some m => exact ⟨m, q.erase m, rfl, List.perm_cons_erase (List.max?_mem hm)⟩
  greatest q m q' h x hx := by
    unfold pickMax at h
    cases hm : q.max? with
    | none => rw [hm] at h; cases h
    | some k =>
      rw [hm] at h
      injection h with h
      injection h with h1 h2
      subst h1
      have := (List.max?_eq_some_iff.mp hm).2 x hx
      omega

example :
    let send (m : Nat) : List (Act Nat) := [.call 1 (.receive m), .client 1, .client 1, .client 1, .client 1]
    (exec pickMax init (send 10 ++ send 30 ++ send 20 ++ [.start] ++ List.replicate 24 .worker)).map
      (fun s => (processed s.log, s.queue)) = some ([30, 20, 10], []) := by
  decide +kernel

/-! ### C99 -/

/-- A strict weak order: irreflexive, transitive, incomparability transitive. -/
structure StrictWeak {T : Type} (lt : T → T → Bool) : Prop where
  irrefl  : ∀ x, lt x x = false
  trans   : ∀ x y z, lt x y = true → lt y z = true → lt x z = true
  incomp  : ∀ x y z, lt x y = false → lt y x = false → lt y z = false → lt z y = false → lt x z = false ∧ lt z x = false

/-- C99: `pointer_comparison` orders pointers as the pointees are ordered, and is a strict weak order when the order of the
pointees is. -/
theorem C99_lifts {P T : Type} (heap : P → T) (transform : T → T → Bool) :
    (∀ p q, pointerComparison heap transform p q = transform (heap p) (heap q)) ∧
    (StrictWeak transform → StrictWeak (pointerComparison heap transform)) :=
  ⟨fun _ _ => rfl, fun h => ⟨fun _ => h.irrefl _, fun _ _ _ => h.trans _ _ _, fun _ _ _ => h.incomp _ _ _⟩⟩

example : pointerComparison (fun p : Nat => [5, 3, 5].getD p 0) (fun a b => decide (a < b)) 1 0 = true ∧
    pointerComparison (fun p : Nat => [5, 3, 5].getD p 0) (fun a b => decide (a < b)) 0 2 = false := by decide

/-! ### C109 -/

/-- The full claim of C109: no data race on the container or on `_running`. -/
def C109_statement (α : Type) : Prop :=
  ∀ s : St α, Reach pickFront s → (∀ t, ¬ WorkerRace s t) ∧ ∀ t u, ¬ ClientRace s t u

/-- C109 fails: the worker evaluates `_queue.empty()` without the mutex of the queue, here while a client inserts. -/
theorem C109_counterexample : ¬ C109_statement Nat := by
  intro h
  have hk : (exec pickFront (init : St Nat) ([.start] ++ List.replicate 4 .worker ++
      [.call 1 (.receive 10), .client 1])).map (fun s => (s.wpc, s.cpc 1)) = some (.waitPred, .pushBody 10) := by decide +kernel
  cases hs : exec pickFront (init : St Nat) ([.start] ++ List.replicate 4 .worker ++ [.call 1 (.receive 10), .client 1]) with
  | none => rw [hs] at hk; cases hk
  | some s =>
    rw [hs] at hk
    simp only [Option.map_some, Option.some.injEq, Prod.mk.injEq] at hk
    refine (h s (exec_reach hs)).1 1 ⟨.queue, false, true, ?_, ?_, .inr rfl⟩
    · rw [hk.1]; simp [WPc.accesses]
    · rw [hk.2]; simp [CPc.accesses]

/-- C109 fails also for `_running`, a plain `bool`: `is_running()` reads it while the worker writes it. -/
theorem C109_counterexample_running : ∃ s : St Nat, Reach pickFront s ∧ s.wpc = .setRunning ∧ s.cpc 1 = .runningRead ∧
    WorkerRace s 1 := by
  have hk : (exec pickFront (init : St Nat) ([.start] ++ List.replicate 2 .worker ++
      [.call 1 .isRunning])).map (fun s => (s.wpc, s.cpc 1)) = some (.setRunning, .runningRead) := by decide +kernel
  cases hs : exec pickFront (init : St Nat) ([.start] ++ List.replicate 2 .worker ++ [.call 1 .isRunning]) with
  | none => rw [hs] at hk; cases hk
  | some s =>
    rw [hs] at hk
    simp only [Option.map_some, Option.some.injEq, Prod.mk.injEq] at hk
    exact ⟨s, exec_reach hs, hk.1, hk.2, .running, true, false, by rw [hk.1]; simp [WPc.accesses],
      by rw [hk.2]; simp [CPc.accesses], .inl rfl⟩

/-- C109, the part that holds: clients never race with each other, and a client races with the worker only in the two
ways of the counterexamples. Missing: the two unprotected reads. -/
theorem C109_races_partial (pick : Pick α) (hp : GoodPick pick) (s : St α) (h : Reach pick s) :
    (∀ t u, ¬ ClientRace s t u) ∧
    (∀ t, WorkerRace s t → ((s.wpc = .waitPred ∨ s.wpc = .innerPred) ∧ ∃ m, s.cpc t = .pushBody m) ∨
      ((s.wpc = .setRunning ∨ s.wpc = .readStopped) ∧ s.cpc t = .runningRead)) := by
  have hi := reach_inv hp h
  constructor
  · rintro t u ⟨hne, l, w, w', h1, h2, h3⟩
    have ho : ∀ (p : CPc α) w, (Loc.queue, w) ∈ p.accesses → p.owns = true := by
      intro p w hp; cases p <;> simp [CPc.accesses, CPc.owns] at hp ⊢
    have hr : ∀ (p : CPc α) w, (Loc.running, w) ∈ p.accesses → w = false := by
      intro p w hp; cases p <;> simp [CPc.accesses] at hp ⊢; exact hp
    cases l with
    | queue =>
      have e1 := (hi.cown t).mp (ho _ _ h1)
      have e2 := (hi.cown u).mp (ho _ _ h2)
      rw [e1] at e2
      injection e2 with e2
      injection e2 with e2
      exact hne e2
    | running =>
      rw [hr _ _ h1, hr _ _ h2] at h3
      simp at h3
  · rintro t ⟨l, w, w', h1, h2, h3⟩
    have hwo := hi.wown
    have hco := hi.cown t
    cases hw : s.wpc <;> rw [hw] at h1 hwo <;> simp [WPc.accesses] at h1
    all_goals obtain ⟨rfl, rfl⟩ := h1
    all_goals cases hc : s.cpc t <;> rw [hc] at h2 hco <;> simp [CPc.accesses] at h2
    all_goals (try subst h2)
    all_goals (first | (simp at h3; done) | skip)
    all_goals (first | (right; simp; done) | (left; simp; done) | skip)
    all_goals
      exfalso
      have e1 := hwo.mp rfl
      have e2 := hco.mp rfl
      rw [e1] at e2
      cases e2

/-! ### C110 -/

/-- The full claim of C110: the worker of a queue that is started again runs until `stop` is called again: each run needs its
own call of `stop`. -/
def stops (log : List (Event α)) : Nat := log.countP fun e => match e with | .stopCall _ => true | _ => false
def ends (log : List (Event α)) : Nat := log.countP fun e => match e with | .stopped => true | _ => false
def C110_statement (α : Type) : Prop := ∀ s : St α, Reach pickFront s → ends s.log ≤ stops s.log

/-- C110 fails: `_stopped` is never reset, the second run ends at once. -/
theorem C110_counterexample : ¬ C110_statement Nat := by
  intro h
  have hk : (exec pickFront (init : St Nat) ([.start] ++ List.replicate 5 .worker ++ [.call 1 .stop, .client 1, .client 1, .timeout] ++
      List.replicate 5 .worker ++ [.start] ++ List.replicate 5 .worker ++ [.timeout] ++ List.replicate 5 .worker)).map
      (fun s => (ends s.log, stops s.log)) = some (2, 1) := by decide +kernel
  cases hs : exec pickFront (init : St Nat) ([.start] ++ List.replicate 5 .worker ++
      [.call 1 .stop, .client 1, .client 1, .timeout] ++
      List.replicate 5 .worker ++ [.start] ++ List.replicate 5 .worker ++ [.timeout] ++ List.replicate 5 .worker) with
  | none => rw [hs] at hk; cases hk
  | some s =>
    rw [hs] at hk
    simp only [Option.map_some, Option.some.injEq, Prod.mk.injEq] at hk
    have := h s (exec_reach hs)
    rw [hk.1, hk.2] at this
    exact absurd this (by decide)

/-- C110, the part that holds: no run ends before the first call of `stop`. Missing: the second and later runs. -/
theorem C110_first_partial (pick : Pick α) (hp : GoodPick pick) (s : St α) (h : Reach pick s)
    (hns : ∀ t, Event.stopCall t ∉ s.log) : s.wpc ≠ .onStop ∧ s.wpc ≠ .finished := by
  obtain ⟨_, he⟩ := reach_einv hp h
  constructor
  · intro hw
    obtain ⟨t, ht⟩ := he.flag (he.stop (.inl hw))
    exact hns t ht
  · intro hw
    obtain ⟨t, ht⟩ := he.flag (he.stop (.inr (.inl hw)))
    exact hns t ht

end Verif.MsgQueue
