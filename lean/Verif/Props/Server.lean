import Verif.Model.Server
import Verif.Props.LsDoc
/-! C110: the language server answers each request once, and its documents are the editor's. -/
namespace Verif.Server
open Verif.LsDoc

variable {V T C D : Type}

/-- The requests the server is there for. -/
def Served (m : String) : Prop :=
  m = "shutdown" ∨ m = "initialize" ∨ m = "textDocument/completion" ∨ m = "textDocument/hover"

instance : DecidablePred Served := fun m => by unfold Served; infer_instance

/-- Whether the parameters are those of the request. -/
def Fits (env : Env V T C D) (m : String) (p : V) : Prop :=
  (m = "shutdown" → env.isUnit p = true) ∧ (m = "initialize" → env.isInit p = true) ∧
  (m = "textDocument/completion" → env.isCompletion p = true) ∧ (m = "textDocument/hover" → env.isHover p = true)

/-- What is the result of a request, given the workspace. -/
def IsResult (env : Env V T C D) (w : Wsp T C D) (m : String) (p v : V) : Prop :=
  (m = "shutdown" → v = env.null) ∧ (m = "initialize" → v = env.capabilities) ∧
  (m = "textDocument/completion" → v = env.complete w p) ∧ (m = "textDocument/hover" → v = env.hover w p)

/-- The numbers of the served requests among the messages. -/
def asked (msgs : List (Msg V)) : List Nat :=
  msgs.flatMap fun
    | .request id m _ => if Served m then [id] else []
    | _ => []

/-- The edits of a document among the messages. -/
def editsOf (env : Env V T C D) (url : String) (msgs : List (Msg V)) : List (Change C) :=
  msgs.flatMap fun
    | .notification m p =>
      if m = "textDocument/didChange" then
        match env.asChange p with
        | some (u, c) => if u = url then [c] else []
        | none => []
      else []
    | _ => []

/-- The message ends the server. -/
def Ends (env : Env V T C D) (m : Msg V) : Prop := ∃ p, m = .notification "exit" p ∧ env.isUnit p = true

/-- The message opens the document. -/
def Opens (env : Env V T C D) (url : String) (m : Msg V) : Prop :=
  ∃ p t v, m = .notification "textDocument/didOpen" p ∧ env.asOpen p = some (url, t, v)

/-- Everything the editor sent was received and everything it asked for was carried out. -/
def Finished (s : Server V T C D) : Prop := s.inbox = [] ∧ s.tasks = []

theorem mem_handlers (m : String) : m ∈ requestHandlers ↔ Served m := by
  simp [requestHandlers, Served]

theorem request_cases (env : Env V T C D) (w : Wsp T C D) (p : V) (m : String) :
    (¬ Served m ∧ request env w p m = none) ∨
    (Served m ∧ Fits env m p ∧ ∃ v, IsResult env w m p v ∧ request env w p m = some (.ok v)) ∨
    (Served m ∧ ¬ Fits env m p ∧
      request env w p m = some (.error ⟨-32602, if m = "initialize" then some env.noRetry else none⟩)) := by
  by_cases h1 : m = "shutdown"
  · subst h1; cases h : env.isUnit p <;> simp [Served, Fits, IsResult, request, rpc, invalidParams, h]
  by_cases h2 : m = "initialize"
  · subst h2; cases h : env.isInit p <;> simp [Served, Fits, IsResult, request, rpc, invalidParams, h]
  by_cases h3 : m = "textDocument/completion"
  · subst h3; cases h : env.isCompletion p <;> simp [Served, Fits, IsResult, request, rpc, invalidParams, h]
  by_cases h4 : m = "textDocument/hover"
  · subst h4; cases h : env.isHover p <;> simp [Served, Fits, IsResult, request, rpc, invalidParams, h]
  left; refine ⟨by simp [Served, *], ?_⟩
  unfold request; split <;> first | contradiction | rfl

theorem asked_append (a b : List (Msg V)) : asked (a ++ b) = asked a ++ asked b := List.flatMap_append ..

theorem asked_spawned (m : Msg V) : asked (spawned m) = asked [m] := by
  cases m with
  | request id m p => by_cases h : Served m <;> simp [spawned, mem_handlers, h, asked]
  | notification m p => by_cases h : m ∈ notificationHandlers <;> simp [spawned, h, asked]
  | response => rfl

theorem perm_erase {t : Msg V} : ∀ {l : List (Msg V)} {i : Nat}, l[i]? = some t → (t :: l.eraseIdx i).Perm l
  | [], _, h => by simp at h
  | _ :: _, 0, h => by simp at h; simp [h]
  | a :: l, i + 1, h => (List.Perm.swap a t _).trans ((perm_erase (l := l) (i := i) (by simpa using h)).cons a)

theorem step_cases (env : Env V T C D) (s : Server V T C D) (c : Choice) :
    step env s c = s ∨
    (∃ m ms, s.inbox = m :: ms ∧ step env s c = { s with inbox := ms, tasks := s.tasks ++ spawned m }) ∨
    (∃ i t, s.tasks[i]? = some t ∧ step env s c = carryOut env { s with tasks := s.tasks.eraseIdx i } t) := by
  unfold step
  split
  · exact .inl rfl
  cases c with
  | receive =>
    simp only
    split
    · exact .inl rfl
    · next m ms h => exact .inr (.inl ⟨m, ms, h, rfl⟩)
  | carry i =>
    simp only
    split
    · exact .inl rfl
    · next t h => exact .inr (.inr ⟨i, t, h, rfl⟩)

theorem carryOut_sent (env : Env V T C D) (s : Server V T C D) (t : Msg V) :
    (carryOut env s t).sent.map (·.id) = s.sent.map (·.id) ++ asked [t] ∧
    (carryOut env s t).tasks = s.tasks ∧ (carryOut env s t).inbox = s.inbox := by
  cases t with
  | request id m p =>
    rcases request_cases env s.wsp p m with ⟨h, e⟩ | ⟨h, _, v, _, e⟩ | ⟨h, _, e⟩ <;> simp [carryOut, e, asked, h]
  | notification m p => by_cases h : m = "exit" <;> simp [carryOut, h, asked]
  | response => simp [carryOut, asked]

theorem step_asked (env : Env V T C D) (s : Server V T C D) (c : Choice) :
    ((step env s c).sent.map (·.id) ++ asked (step env s c).tasks ++ asked (step env s c).inbox).Perm
      (s.sent.map (·.id) ++ asked s.tasks ++ asked s.inbox) := by
  rcases step_cases env s c with e | ⟨m, ms, hi, e⟩ | ⟨i, t, ht, e⟩ <;> rw [e]
  · have : asked (m :: ms) = asked [m] ++ asked ms := asked_append [m] ms
    simp [asked_append, asked_spawned, hi, this]
  · obtain ⟨h1, h2, h3⟩ := carryOut_sent env { s with tasks := s.tasks.eraseIdx i } t
    simp only [h1, h2, h3]
    refine List.Perm.append_right _ ?_
    rw [List.append_assoc]
    refine List.Perm.append_left _ ?_
    rw [← asked_append]
    exact (perm_erase ht).flatMap_right _

theorem after_asked (env : Env V T C D) (sched : List Choice) : ∀ s : Server V T C D,
    ((after env s sched).sent.map (·.id) ++ asked (after env s sched).tasks ++ asked (after env s sched).inbox).Perm
      (s.sent.map (·.id) ++ asked s.tasks ++ asked s.inbox) := by
  induction sched with
  | nil => intro s; exact .refl _
  | cons c cs ih => intro s; exact (ih (step env s c)).trans (step_asked env s c)

/-- What an answer says. `held` are the workspaces the server had. -/
def Right (env : Env V T C D) (held : Wsp T C D → Prop) (msgs : List (Msg V)) (r : Response V) : Prop :=
  ∃ m p, Msg.request r.id m p ∈ msgs ∧ Served m ∧
    ((Fits env m p ∧ (∃ w v, held w ∧ IsResult env w m p v ∧ r.result = some v) ∧ r.error = none) ∨
     (¬ Fits env m p ∧ r.result = none ∧
      r.error = some ⟨-32602, if m = "initialize" then some env.noRetry else none⟩))

theorem mem_spawned {m t : Msg V} (h : t ∈ spawned m) : t = m := by
  cases m <;> simp only [spawned] at h <;> (try split at h) <;> simp_all

theorem after_keeps (env : Env V T C D) (H : Wsp T C D → Prop) (msgs : List (Msg V)) (sched : List Choice) :
    ∀ s : Server V T C D, (∀ pre, pre <+: sched → H (after env s pre).wsp) →
    (∀ t ∈ s.tasks, t ∈ msgs) → (∀ t ∈ s.inbox, t ∈ msgs) → (∀ r ∈ s.sent, Right env H msgs r) →
    (∀ t ∈ (after env s sched).tasks, t ∈ msgs) ∧ (∀ t ∈ (after env s sched).inbox, t ∈ msgs) ∧
    (∀ r ∈ (after env s sched).sent, Right env H msgs r) ∧
    ((∀ m ∈ msgs, ¬ Ends env m) → s.exited = false → (after env s sched).exited = false) := by
  induction sched with
  | nil => intro s _ h1 h2 h3; exact ⟨h1, h2, h3, fun _ h => h⟩
  | cons c cs ih =>
    intro s hH h1 h2 h3
    have hw : H s.wsp := hH [] List.nil_prefix
    have key : (∀ t ∈ (step env s c).tasks, t ∈ msgs) ∧ (∀ t ∈ (step env s c).inbox, t ∈ msgs) ∧
        (∀ r ∈ (step env s c).sent, Right env H msgs r) ∧
        ((∀ m ∈ msgs, ¬ Ends env m) → s.exited = false → (step env s c).exited = false) := by
      rcases step_cases env s c with e | ⟨m, ms, hi, e⟩ | ⟨i, t, ht, e⟩ <;> rw [e]
      · exact ⟨h1, h2, h3, fun _ h => h⟩
      · rw [hi] at h2
        refine ⟨?_, fun t ht => h2 t (List.mem_cons_of_mem _ ht), h3, fun _ h => h⟩
        intro t ht
        rcases List.mem_append.1 ht with ht | ht
        · exact h1 t ht
        · rw [mem_spawned ht]; exact h2 m List.mem_cons_self
      · have hm : t ∈ msgs := h1 t (List.mem_of_getElem? ht)
        obtain ⟨_, e2, e3⟩ := carryOut_sent env { s with tasks := s.tasks.eraseIdx i } t
        simp only [e2, e3]
        refine ⟨fun u hu => h1 u (List.mem_of_mem_eraseIdx hu), h2, ?_, ?_⟩
        · cases t with
          | request id m p =>
            intro r hr
            rcases request_cases env s.wsp p m with ⟨h, e⟩ | ⟨h, hf, v, hr', e⟩ | ⟨h, hf, e⟩ <;>
              simp only [carryOut, e] at hr
            · exact h3 r hr
            · rcases List.mem_append.1 hr with hr | hr
              · exact h3 r hr
              · rw [List.mem_singleton.1 hr]; exact ⟨m, p, hm, h, .inl ⟨hf, ⟨s.wsp, v, hw, hr', rfl⟩, rfl⟩⟩
            · rcases List.mem_append.1 hr with hr | hr
              · exact h3 r hr
              · rw [List.mem_singleton.1 hr]; exact ⟨m, p, hm, h, .inr ⟨hf, rfl, rfl⟩⟩
          | notification m p => by_cases h : m = "exit" <;> simpa [carryOut, h] using h3
          | response => exact h3
        · intro hne he
          cases t with
          | request id m p =>
            rcases request_cases env s.wsp p m with ⟨h, e⟩ | ⟨h, hf, v, hr', e⟩ | ⟨h, hf, e⟩ <;>
              simpa [carryOut, e] using he
          | notification m p =>
            by_cases h : m = "exit"
            · subst h
              have : env.isUnit p = false := by
                cases hu : env.isUnit p
                · rfl
                · exact absurd ⟨p, rfl, hu⟩ (hne _ hm)
              simp [carryOut, he, this]
            · simpa [carryOut, h] using he
          | response => exact he
    obtain ⟨k1, k2, k3, k4⟩ := key
    obtain ⟨i1, i2, i3, i4⟩ := ih (step env s c)
      (fun pre hp => hH (c :: pre) (List.cons_prefix_cons.2 ⟨rfl, hp⟩)) k1 k2 k3
    exact ⟨i1, i2, i3, fun hne he => i4 hne (k4 hne he)⟩

/-- Any state can be run to its end. -/
theorem can_finish (env : Env V T C D) : ∀ (n : Nat) (s : Server V T C D), 2 * s.inbox.length + s.tasks.length ≤ n →
    ∃ more, (after env s more).exited = true ∨ Finished (after env s more) := by
  intro n
  induction n with
  | zero =>
    intro s h
    have h1 : s.inbox.length = 0 := by omega
    have h2 : s.tasks.length = 0 := by omega
    exact ⟨[], .inr ⟨List.length_eq_zero_iff.1 h1, List.length_eq_zero_iff.1 h2⟩⟩
  | succ n ih =>
    intro s h
    cases he : s.exited with
    | true => exact ⟨[], .inl he⟩
    | false =>
    cases ht : s.tasks with
    | cons t ts =>
      have hs : step env s (.carry 0) = carryOut env { s with tasks := ts } t := by simp [step, he, ht]
      obtain ⟨_, e2, e3⟩ := carryOut_sent env { s with tasks := ts } t
      obtain ⟨more, hm⟩ := ih (step env s (.carry 0)) (by rw [hs, e2, e3]; simp [ht] at h ⊢; omega)
      exact ⟨.carry 0 :: more, hm⟩
    | nil =>
      cases hi : s.inbox with
      | nil => exact ⟨[], .inr ⟨hi, ht⟩⟩
      | cons m ms =>
        have hl : (spawned m).length ≤ 1 := by
          cases m <;> simp only [spawned] <;> (try split) <;> simp
        obtain ⟨more, hm⟩ := ih (step env s .receive) (by simp [step, he, hi, ht] at h ⊢; omega)
        exact ⟨.receive :: more, hm⟩

/-- C110: whatever the editor sends and in whatever order the server carries it out: answers are given only to
served requests and at most once to each. Each answer is the result, of a workspace the server had, if the
parameters are those of the request, and an error saying so otherwise. When nothing is left to do, each served request was answered. As long as the server is not
ended there is always a way to get there. -/
theorem requests_answered_once_partial (env : Env V T C D) (w : Wsp T C D) (msgs : List (Msg V)) (sched : List Choice) :
    (∃ rest, ((after env (start w msgs) sched).sent.map (·.id) ++ rest).Perm (asked msgs)) ∧
    (∀ r ∈ (after env (start w msgs) sched).sent,
      Right env (fun w' => ∃ pre, pre <+: sched ∧ w' = (after env (start w msgs) pre).wsp) msgs r) ∧
    (Finished (after env (start w msgs) sched) →
      ((after env (start w msgs) sched).sent.map (·.id)).Perm (asked msgs)) ∧
    ((∀ m ∈ msgs, ¬ Ends env m) → ∃ more, Finished (after env (start w msgs) (sched ++ more))) := by
  have hp := after_asked env sched (start w msgs)
  have h0 : (start (C := C) (T := T) (D := D) w msgs).sent.map (·.id) ++ asked (start w msgs).tasks ++
    asked (start w msgs).inbox = asked msgs := by simp [start, asked]
  rw [h0] at hp
  have hk := fun sch => after_keeps env (fun w' => ∃ pre, pre <+: sch ∧ w' = (after env (start w msgs) pre).wsp) msgs sch
    (start w msgs) (fun pre hp => ⟨pre, hp, rfl⟩) (by simp [start]) (by simp [start]) (by simp [start])
  refine ⟨⟨_, by rw [List.append_assoc] at hp; exact hp⟩, (hk sched).2.2.1, ?_, ?_⟩
  · rintro ⟨f1, f2⟩
    rw [f1, f2] at hp
    simpa [asked] using hp
  · intro hne
    obtain ⟨more, hm⟩ := can_finish env _ (after env (start w msgs) sched) (Nat.le_refl _)
    have ha : after env (after env (start w msgs) sched) more = after env (start w msgs) (sched ++ more) := by
      simp [after]
    rw [ha] at hm
    refine ⟨more, hm.resolve_left ?_⟩
    rw [(hk (sched ++ more)).2.2.2 hne rfl]
    exact Bool.false_ne_true

/-- C110, what does not hold: the server announces that it can be asked for definitions, but such a request is never
answered. -/
theorem announced_but_not_answered (env : Env V T C D) (w : Wsp T C D) (id : Nat) (p : V) (sched : List Choice) :
    "textDocument/definition" ∈ announced ∧
    (after env (start w [.request id "textDocument/definition" p]) sched).sent = [] := by
  refine ⟨by simp [announced], ?_⟩
  obtain ⟨⟨rest, h⟩, _⟩ := requests_answered_once_partial env w [.request id "textDocument/definition" p] sched
  have : asked [Msg.request id "textDocument/definition" p] = [] := by simp [asked, Served]
  rw [this] at h
  have := h.eq_nil
  simp only [List.append_eq_nil_iff, List.map_eq_nil_iff] at this
  exact this.1

/-! ### Documents -/

theorem editsOf_append (env : Env V T C D) (url : String) (a b : List (Msg V)) :
    editsOf env url (a ++ b) = editsOf env url a ++ editsOf env url b := List.flatMap_append ..

theorem editsOf_spawned (env : Env V T C D) (url : String) (m : Msg V) :
    editsOf env url (spawned m) = editsOf env url [m] := by
  cases m with
  | request id m p => by_cases h : m ∈ requestHandlers <;> simp [spawned, h, editsOf]
  | notification m p =>
    by_cases h : m ∈ notificationHandlers
    · simp [spawned, h]
    · have : m ≠ "textDocument/didChange" := by rintro rfl; simp [notificationHandlers] at h
      simp [spawned, h, editsOf, this]
  | response => rfl

theorem carryOut_doc (env : Env V T C D) (url : String) (s : Server V T C D) (d : Doc T C) (t : Msg V)
    (hd : s.wsp.files url = some d) (ho : ¬ Opens env url t) :
    (carryOut env s t).wsp.files url = some (d.receive env.apply (editsOf env url [t])) := by
  cases t with
  | request id m p =>
    rcases request_cases env s.wsp p m with ⟨h, e⟩ | ⟨h, _, v, _, e⟩ | ⟨h, _, e⟩ <;>
      simp [carryOut, e, editsOf, Doc.receive, hd]
  | response => simp [carryOut, editsOf, Doc.receive, hd]
  | notification m p =>
    by_cases h0 : m = "exit"
    · simp [carryOut, h0, editsOf, Doc.receive, hd]
    by_cases h1 : m = "textDocument/didOpen"
    · subst h1
      cases hp : env.asOpen p with
      | none => simp [carryOut, notify, hp, editsOf, Doc.receive, hd]
      | some x =>
        obtain ⟨u, tx, v⟩ := x
        have : url ≠ u := by rintro rfl; exact ho ⟨p, tx, v, rfl, hp⟩
        simp [carryOut, notify, hp, editsOf, Doc.receive, hd, defLoad, addFile, this]
    by_cases h2 : m = "textDocument/didChange"
    · subst h2
      cases hp : env.asChange p with
      | none => simp [carryOut, notify, hp, editsOf, Doc.receive, hd]
      | some x =>
        obtain ⟨u, c⟩ := x
        by_cases hu : u = url
        · subst hu
          simp [carryOut, notify, hp, editsOf, Doc.receive, hd, addFileChanges, addFile]
        · have hu' : url ≠ u := fun h => hu h.symm
          cases hf : s.wsp.files u <;>
            simp [carryOut, notify, hp, editsOf, Doc.receive, hd, addFileChanges, addFile, hu, hu', hf]
    by_cases h3 : m = "textDocument/didSave"
    · subst h3
      cases hs : env.isSave p <;> simp [carryOut, notify, hs, editsOf, Doc.receive, hd, defLoad]
    have : notify env s.wsp p m = s.wsp := by
      unfold notify; split <;> first | contradiction | rfl
    simp [carryOut, h0, this, editsOf, h2, Doc.receive, hd]

theorem after_doc (env : Env V T C D) (url : String) (d0 : Doc T C) (es : List (Change C)) (sched : List Choice) :
    ∀ (s : Server V T C D) (ds : List (Change C)),
    (∀ t ∈ s.tasks, ¬ Opens env url t) → (∀ t ∈ s.inbox, ¬ Opens env url t) →
    s.wsp.files url = some (d0.receive env.apply ds) →
    (ds ++ editsOf env url s.tasks ++ editsOf env url s.inbox).Perm es →
    ∃ ds', (after env s sched).wsp.files url = some (d0.receive env.apply ds') ∧
      (ds' ++ editsOf env url (after env s sched).tasks ++ editsOf env url (after env s sched).inbox).Perm es := by
  induction sched with
  | nil => intro s ds _ _ h3 h4; exact ⟨ds, h3, h4⟩
  | cons c cs ih =>
    intro s ds h1 h2 h3 h4
    have key : ∃ ds', (∀ t ∈ (step env s c).tasks, ¬ Opens env url t) ∧ (∀ t ∈ (step env s c).inbox, ¬ Opens env url t) ∧
        (step env s c).wsp.files url = some (d0.receive env.apply ds') ∧
        (ds' ++ editsOf env url (step env s c).tasks ++ editsOf env url (step env s c).inbox).Perm es := by
      rcases step_cases env s c with e | ⟨m, ms, hi, e⟩ | ⟨i, t, ht, e⟩ <;> rw [e]
      · exact ⟨ds, h1, h2, h3, h4⟩
      · rw [hi] at h2 h4
        refine ⟨ds, ?_, fun t ht => h2 t (List.mem_cons_of_mem _ ht), h3, ?_⟩
        · intro t ht
          rcases List.mem_append.1 ht with ht | ht
          · exact h1 t ht
          · rw [mem_spawned ht]; exact h2 m List.mem_cons_self
        · have : editsOf env url (m :: ms) = editsOf env url [m] ++ editsOf env url ms := editsOf_append env url [m] ms
          simpa [editsOf_append, editsOf_spawned, this] using h4
      · obtain ⟨_, e2, e3⟩ := carryOut_sent env { s with tasks := s.tasks.eraseIdx i } t
        have hd := carryOut_doc env url { s with tasks := s.tasks.eraseIdx i } _ t h3 (h1 t (List.mem_of_getElem? ht))
        refine ⟨ds ++ editsOf env url [t], ?_, ?_, ?_, ?_⟩
        · simp only [e2]; exact fun u hu => h1 u (List.mem_of_mem_eraseIdx hu)
        · simp only [e3]; exact h2
        · simp only [hd, Doc.receive, List.foldl_append]
        · simp only [e2, e3]
          refine List.Perm.trans ?_ h4
          refine List.Perm.append_right _ ?_
          rw [List.append_assoc]
          refine List.Perm.append_left _ ?_
          rw [← editsOf_append]
          exact (perm_erase ht).flatMap_right _
    obtain ⟨ds', k1, k2, k3, k4⟩ := key
    exact ih (step env s c) ds' k1 k2 k3 k4

/-- C110: the editor opens a document and the server carries that out. Whatever the editor sends then, among it the
edits `v+1 … v+n` of the document, and in whatever order the server carries it out: when nothing is left to do, the
server's document is the text with all edits made in their order. -/
theorem document_is_the_editors_partial (env : Env V T C D) (w : Wsp T C D) (url : String) (t : T) (v : Int) (p : V)
    (msgs : List (Msg V)) (sched : List Choice)
    (hp : env.asOpen p = some (url, t, v))
    (hone : ∀ m ∈ msgs, ¬ Opens env url m)
    (hv : (editsOf env url msgs).map (·.version) =
      (List.range (editsOf env url msgs).length).map (fun i : Nat => v + 1 + (i : Int)))
    (hfin : Finished (after env (start w (.notification "textDocument/didOpen" p :: msgs)) (.receive :: .carry 0 :: sched))) :
    (after env (start w (.notification "textDocument/didOpen" p :: msgs)) (.receive :: .carry 0 :: sched)).wsp.files url =
      some ⟨(editsOf env url msgs).foldl (fun t c => env.apply t c.changes) t, v + (editsOf env url msgs).length, []⟩ := by
  have h2 : after env (start w (.notification "textDocument/didOpen" p :: msgs)) (.receive :: .carry 0 :: sched) =
      after env ⟨msgs, [], [], defLoad env (addFile w url (Doc.new t v)), false⟩ sched := by
    simp [after, start, step, spawned, notificationHandlers, carryOut, notify, hp]
  rw [h2] at hfin ⊢
  obtain ⟨ds, hd, hperm⟩ := after_doc env url (Doc.new t v) (editsOf env url msgs) sched
    ⟨msgs, [], [], defLoad env (addFile w url (Doc.new t v)), false⟩ [] (by simp) hone
    (by simp [defLoad, addFile, Doc.receive]) (by simp [editsOf])
  rw [hfin.1, hfin.2] at hperm
  rw [hd, edits_converge env.apply t v (editsOf env url msgs) ds hv (by simpa [editsOf] using hperm)]

/-! ### Definitions -/

theorem carryOut_defs (env : Env V T C D) (s : Server V T C D) (t : Msg V) :
    (carryOut env s t).wsp.defs = s.wsp.defs ∨
    (carryOut env s t).wsp.defs = env.load (carryOut env s t).wsp.files := by
  cases t with
  | request id m p =>
    rcases request_cases env s.wsp p m with ⟨h, e⟩ | ⟨h, _, v, _, e⟩ | ⟨h, _, e⟩ <;> simp [carryOut, e]
  | response => exact .inl rfl
  | notification m p =>
    by_cases h0 : m = "exit"
    · simp [carryOut, h0]
    simp only [carryOut, h0, if_false]
    unfold notify
    split
    · split
      · exact .inr rfl
      · exact .inl rfl
    · split
      · left; unfold addFileChanges; split <;> rfl
      · exact .inl rfl
    · split
      · exact .inr rfl
      · exact .inl rfl
    · exact .inl rfl

/-- C110: the definitions the server has are always those of all documents as it had them at one time, or those it
started with. They are never those of some documents as they were and of others as they are. -/
theorem definitions_of_one_time (env : Env V T C D) (s : Server V T C D) (sched : List Choice) :
    (after env s sched).wsp.defs = s.wsp.defs ∨
    ∃ pre, pre <+: sched ∧ (after env s sched).wsp.defs = env.load (after env s pre).wsp.files := by
  induction sched generalizing s with
  | nil => exact .inl rfl
  | cons c cs ih =>
    rcases ih (step env s c) with h | ⟨pre, hp, h⟩
    · have key : (step env s c).wsp.defs = s.wsp.defs ∨
          (step env s c).wsp.defs = env.load (step env s c).wsp.files := by
        rcases step_cases env s c with e | ⟨m, ms, hi, e⟩ | ⟨i, t, ht, e⟩ <;> rw [e]
        · exact .inl rfl
        · exact .inl rfl
        · exact carryOut_defs env { s with tasks := s.tasks.eraseIdx i } t
      rcases key with k | k
      · exact .inl (h.trans k)
      · exact .inr ⟨[c], List.cons_prefix_cons.2 ⟨rfl, List.nil_prefix⟩, h.trans k⟩
    · exact .inr ⟨c :: pre, List.cons_prefix_cons.2 ⟨rfl, hp⟩, h⟩

/-- Each message is carried out before the next one is received. -/
def inTurn (n : Nat) : List Choice := (List.replicate n [Choice.receive, .carry 0]).flatten

theorem after_inTurn (env : Env V T C D) : ∀ (msgs rest : List (Msg V)) (sent : List (Response V)) (w : Wsp T C D),
    (∀ m ∈ msgs, ¬ Ends env m) → ∃ sent' w',
      after env ⟨msgs ++ rest, [], sent, w, false⟩ (inTurn msgs.length) = ⟨rest, [], sent', w', false⟩ := by
  intro msgs
  induction msgs with
  | nil => intro rest sent w _; exact ⟨sent, w, rfl⟩
  | cons m ms ih =>
    intro rest sent w hne
    have key : ∃ sent' w', after env ⟨m :: ms ++ rest, [], sent, w, false⟩ [.receive, .carry 0] =
        ⟨ms ++ rest, [], sent', w', false⟩ := by
      have hm := hne m List.mem_cons_self
      cases m with
      | response => exact ⟨sent, w, rfl⟩
      | request id m p =>
        by_cases h : m ∈ requestHandlers
        · rcases request_cases env w p m with ⟨_, e⟩ | ⟨_, _, v, _, e⟩ | ⟨_, _, e⟩ <;>
            simp [after, step, spawned, h, carryOut, e]
        · simp [after, step, spawned, h]
      | notification m p =>
        by_cases h : m ∈ notificationHandlers
        · by_cases h0 : m = "exit"
          · have : env.isUnit p = false := by
              cases hu : env.isUnit p
              · rfl
              · exact absurd ⟨p, by rw [h0], hu⟩ hm
            simp [after, step, spawned, h0, notificationHandlers, carryOut, this]
          · simp [after, step, spawned, h, carryOut, h0]
        · simp [after, step, spawned, h]
    obtain ⟨sent', w', k⟩ := key
    obtain ⟨sent'', w'', k'⟩ := ih rest sent' w' (fun x hx => hne x (List.mem_cons_of_mem _ hx))
    refine ⟨sent'', w'', ?_⟩
    have hsplit : inTurn (m :: ms).length = [Choice.receive, .carry 0] ++ inTurn ms.length := by
      simp [inTurn, List.replicate_succ]
    rw [hsplit, after, List.foldl_append]
    have k2 := k
    unfold after at k2
    rw [k2]
    exact k'

/-- The message tells that a document was opened or saved. -/
def Loads (env : Env V T C D) (m : Msg V) : Prop :=
  (∃ p, m = .notification "textDocument/didSave" p ∧ env.isSave p = true) ∨
  (∃ p x, m = .notification "textDocument/didOpen" p ∧ env.asOpen p = some x)

/-- C110: if messages are carried out one after the other, the definitions after a document was opened or saved are
those of all documents as they are. -/
theorem definitions_after_save_partial (env : Env V T C D) (w : Wsp T C D) (msgs : List (Msg V)) (m : Msg V)
    (hne : ∀ m ∈ msgs, ¬ Ends env m) (hm : Loads env m) :
    Finished (after env (start w (msgs ++ [m])) (inTurn (msgs.length + 1))) ∧
    (after env (start w (msgs ++ [m])) (inTurn (msgs.length + 1))).wsp.defs =
      env.load (after env (start w (msgs ++ [m])) (inTurn (msgs.length + 1))).wsp.files := by
  obtain ⟨sent, w', h⟩ := after_inTurn env msgs [m] [] w hne
  have hsplit : inTurn (msgs.length + 1) = inTurn msgs.length ++ [Choice.receive, .carry 0] := by
    simp [inTurn, List.replicate_succ']
  have e : ∃ w'', after env (start w (msgs ++ [m])) (inTurn (msgs.length + 1)) =
      ⟨[], [], sent, defLoad env w'', false⟩ := by
    rw [hsplit, after, List.foldl_append]
    unfold after at h
    rw [start, h]
    rcases hm with ⟨p, rfl, hs⟩ | ⟨p, ⟨url, t, v⟩, rfl, hs⟩
    · exact ⟨w', by simp [step, spawned, notificationHandlers, carryOut, notify, hs]⟩
    · exact ⟨addFile w' url (Doc.new t v), by simp [step, spawned, notificationHandlers, carryOut, notify, hs]⟩
  obtain ⟨w'', e⟩ := e
  rw [e]
  exact ⟨⟨rfl, rfl⟩, rfl⟩

/-- An editor: texts are lists of numbers, an edit appends. Parameters are pairs. -/
def sample : Env (Nat × Nat) (List Nat) Nat (Option (List Nat)) where
  isUnit p := p.1 = 0
  isInit p := p.1 = 1
  isCompletion p := p.1 = 2
  isHover p := p.1 = 3
  isSave p := p.1 = 4
  asOpen p := if p.1 = 5 then some ("doc", [7], 0) else none
  asChange p := if p.1 = 6 then some ("doc", ⟨p.2, 10 + p.2⟩) else none
  apply t c := t ++ [c]
  load f := (f "doc").map (·.text)
  null := (0, 0)
  capabilities := (1, 1)
  noRetry := (1, 0)
  complete _ p := p
  hover _ p := p

def nothing : Wsp (List Nat) Nat (Option (List Nat)) := ⟨fun _ => none, none⟩

/-- C110, what does not hold: an edit that overtakes the opening of its document is lost, and with it every later
edit. The editor has `[7, 11, 12]`. -/
theorem change_overtakes_open :
    let s := after sample (start nothing [.notification "textDocument/didOpen" (5, 0),
      .notification "textDocument/didChange" (6, 1), .notification "textDocument/didChange" (6, 2)])
      [.receive, .receive, .carry 1, .carry 0, .receive, .carry 0]
    Finished s ∧ (s.wsp.files "doc").map (·.text) = some [7] := by
  refine ⟨⟨by decide, by decide⟩, by decide⟩

/-- C110, what does not hold: a save that overtakes an edit leaves the definitions those of the text before the edit. -/
theorem save_overtakes_change :
    let s := after sample (start nothing [.notification "textDocument/didOpen" (5, 0),
      .notification "textDocument/didChange" (6, 1), .notification "textDocument/didSave" (4, 0)])
      [.receive, .carry 0, .receive, .receive, .carry 1, .carry 0]
    Finished s ∧ s.wsp.defs = some [7] ∧ sample.load s.wsp.files = some [7, 11] := by
  refine ⟨⟨by decide, by decide⟩, by decide, by decide⟩

/-- The same messages, carried out one after the other. -/
example :
    let msgs : List (Msg (Nat × Nat)) := [.notification "textDocument/didOpen" (5, 0), .notification "textDocument/didChange" (6, 1)]
    (∀ m ∈ msgs, ¬ Ends sample m) ∧ Loads sample (.notification "textDocument/didSave" (4, 0)) ∧
    (after sample (start nothing (msgs ++ [.notification "textDocument/didSave" (4, 0)])) (inTurn 3)).wsp.defs = some [7, 11] := by
  refine ⟨?_, .inl ⟨_, rfl, by decide⟩, by decide⟩
  simp [Ends]

/-- Two edits and requests, carried out in another order than sent. -/
example :
    let msgs : List (Msg (Nat × Nat)) := [.notification "textDocument/didChange" (6, 1), .request 8 "textDocument/hover" (3, 0),
      .notification "textDocument/didChange" (6, 2), .request 9 "initialize" (7, 0), .request 10 "other" (0, 0)]
    let s := after sample (start nothing (.notification "textDocument/didOpen" (5, 0) :: msgs))
      [.receive, .carry 0, .receive, .receive, .receive, .carry 2, .receive, .receive, .carry 2, .carry 1, .carry 0]
    Finished s ∧ (∀ m ∈ msgs, ¬ Ends sample m) ∧ (∀ m ∈ msgs, ¬ Opens sample "doc" m) ∧
    (editsOf sample "doc" msgs).map (·.version) =
      (List.range (editsOf sample "doc" msgs).length).map (fun i : Nat => 0 + 1 + (i : Int)) ∧
    (s.wsp.files "doc").map (·.text) = some [7, 11, 12] ∧
    s.sent = [⟨9, none, some ⟨-32602, some (1, 0)⟩⟩, ⟨8, some (3, 0), none⟩] := by
  refine ⟨⟨by decide, by decide⟩, ?_, ?_, by decide, by decide, by decide⟩
  · simp [Ends]
  · simp [Opens]

end Verif.Server
