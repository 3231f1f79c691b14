import Verif.Lemmas.ProgWf
import Verif.Props.Locals
/-! C77: the compiler starts as it should. -/
namespace Verif.Prog
open Verif Verif.Exp Verif.Comp
variable {D : Defs} {g : Graph} {T : Type} [DecidableEq T] {Y : Types T} {fn : String → Option String → Nat}

/-! ### The annotated types -/

/-- What the annotated types keep. -/
structure Noted (a b : Ty.State T) : Prop where
  edges : b.edges = a.edges
  done : b.done = a.done
  viaAny : b.viaAny = a.viaAny
  settled : ∀ n sd t, Ty.Settled (a.kn n sd) t → Ty.Settled (b.kn n sd) t
  any : ∀ n sd, b.kn n sd = .any → a.kn n sd = .any
  sets : ∀ n sd ts, b.kn n sd = .inferred ts → ∃ ts0, a.kn n sd = .inferred ts0 ∧ (ts0.Nodup → ts.Nodup)

theorem Noted.rfl' (a : Ty.State T) : Noted a a :=
  ⟨rfl, rfl, rfl, fun _ _ _ h => h, fun _ _ h => h, fun _ _ ts h => ⟨ts, h, fun h => h⟩⟩

theorem Noted.trans {a b c : Ty.State T} (h : Noted a b) (k : Noted b c) : Noted a c := by
  refine ⟨by rw [k.edges, h.edges], by rw [k.done, h.done], by rw [k.viaAny, h.viaAny], fun n sd t x => k.settled n sd t (h.settled n sd t x),
    fun n sd x => h.any n sd (k.any n sd x), ?_⟩
  intro n sd ts x
  obtain ⟨t1, h1, h2⟩ := k.sets n sd ts x
  obtain ⟨t2, h3, h4⟩ := h.sets n sd t1 h1
  exact ⟨t2, h3, fun h => h2 (h4 h)⟩

theorem noted_oblige {a b : Ty.State T} {n : Nat} {sd : Ty.Side} {t : T} (h : Ty.applyChg a (.oblige n sd t) = .ok b) : Noted a b := by
  unfold Ty.applyChg Ty.setKn at h
  dsimp only at h
  split at h
  · cases h; exact .rfl' _
  · split at h
    · rename_i hc
      cases h
      have key : ∀ n' sd', ((Ty.State.set a n sd (.obliged t)).kn n' sd' = a.kn n' sd') ∨
          (n' = n ∧ sd' = sd ∧ (Ty.State.set a n sd (.obliged t)).kn n' sd' = .obliged t) := by
        intro n' sd'
        unfold Ty.State.set
        by_cases hn : n' = n ∧ sd' = sd
        · right; exact ⟨hn.1, hn.2, by simp [hn]⟩
        · left; simp [hn]
      refine ⟨rfl, rfl, rfl, ?_, ?_, ?_⟩
      · intro n' sd' u hu
        rcases key n' sd' with h1 | ⟨h1, h2, h3⟩
        · rw [h1]; exact hu
        · subst h1 h2
          rw [h3]
          rcases hu with hu | hu <;> rw [hu] at hc <;> simp only [Ty.canFlow] at hc <;> split at hc
          · rename_i he; subst he; exact Or.inr rfl
          · cases hc
          · rename_i he; subst he; exact Or.inr rfl
          · cases hc
      · intro n' sd' hu
        rcases key n' sd' with h1 | ⟨h1, h2, h3⟩
        · rw [← h1]; exact hu
        · rw [h3] at hu; cases hu
      · intro n' sd' ts hu
        rcases key n' sd' with h1 | ⟨h1, h2, h3⟩
        · rw [h1] at hu; exact ⟨ts, hu, fun h => h⟩
        · rw [h3] at hu; cases hu
    · cases h

theorem noted_anon {a b : Ty.State T} {t : T} (h : Ty.applyChg a (.anonTy t) = .ok b) : Noted a b := by
  cases h
  refine ⟨rfl, rfl, rfl, ?_, ?_, ?_⟩
  · rintro n sd u (h | h) <;> dsimp only <;> rw [h]
    · exact Or.inl rfl
    · exact Or.inr rfl
  · intro n sd h
    dsimp only at h
    cases hk : a.kn n sd <;> rw [hk] at h <;> cases h
  · intro n sd ts h
    dsimp only at h
    cases hk : a.kn n sd with
    | inferred us =>
      rw [hk] at h
      simp only [Ty.addTy] at h
      injection h with h
      refine ⟨us, rfl, fun hn => ?_⟩
      rw [← h]
      split
      · exact hn
      · rename_i hm
        exact List.nodup_append.2 ⟨hn, by simp, by
          intro x hx y hy e
          rw [List.mem_singleton.1 hy] at e
          exact hm (e ▸ hx)⟩
    | _ => rw [hk] at h; cases h

theorem applyAll_noted {A : Ast T} : ∀ (notes : List (Note T)) (s s' : S T) (b b' : Bool),
    applyAll A s b (notes.map Note.chg) = .ok (s', b') → Noted s.tg s'.tg ∧ s' = { s with tg := s'.tg } := by
  intro notes
  induction notes with
  | nil => intro s s' b b' h; cases h; exact ⟨.rfl' _, rfl⟩
  | cons c notes ih =>
    intro s s' b b' h
    have one : ∀ tc, Note.chg c = .ty tc → (∀ x, Ty.applyChg s.tg tc = .ok x → Noted s.tg x) → Noted s.tg s'.tg ∧ s' = { s with tg := s'.tg } := by
      intro tc htc hx
      rw [List.map_cons, applyAll, htc, apply1] at h
      cases ha : Ty.applyChg s.tg tc with
      | error e => rw [ha] at h; cases h
      | ok x =>
        rw [ha] at h
        dsimp only at h
        obtain ⟨h1, h2⟩ := ih _ _ _ _ h
        refine ⟨(hx x ha).trans h1, ?_⟩
        rw [h2]
    cases c with
    | oblige n sd t => exact one _ rfl fun x h => noted_oblige h
    | anon t => exact one _ rfl fun x h => noted_anon h

/-! ### The type graph -/

theorem link1_mono {op a : Nat} {s : Ty.State T} : (∀ e ∈ s.edges, e ∈ (link1 op s a).edges) ∧
    (∀ e ∈ (link1 op s a).edges, e ∈ s.edges ∨ e = ⟨op, a, .ii⟩) ∧ (link1 op s a).kn = s.kn ∧ (link1 op s a).done = s.done ∧
    (link1 op s a).viaAny = s.viaAny := by
  unfold link1
  split
  · exact ⟨fun _ h => h, fun _ h => Or.inl h, rfl, rfl, rfl⟩
  · refine ⟨fun _ h => List.mem_append_left _ h, fun e h => ?_, rfl, rfl, rfl⟩
    rcases List.mem_append.1 h with h | h
    · exact Or.inl h
    · exact Or.inr (List.mem_singleton.1 h)

theorem link1s_mono {op : Nat} : ∀ (as : List Nat) (s : Ty.State T), (∀ e ∈ s.edges, e ∈ (as.foldl (link1 op) s).edges) ∧
    (∀ e ∈ (as.foldl (link1 op) s).edges, e ∈ s.edges ∨ ∃ a ∈ as, e = ⟨op, a, .ii⟩) ∧ (as.foldl (link1 op) s).kn = s.kn ∧
    (as.foldl (link1 op) s).done = s.done ∧ (as.foldl (link1 op) s).viaAny = s.viaAny := by
  intro as
  induction as with
  | nil => intro s; exact ⟨fun _ h => h, fun _ h => Or.inl h, rfl, rfl, rfl⟩
  | cons a as ih =>
    intro s
    obtain ⟨h1, h2, h3, h4, h5⟩ := link1_mono (op := op) (a := a) (s := s)
    obtain ⟨k1, k2, k3, k4, k5⟩ := ih (link1 op s a)
    rw [List.foldl_cons]
    refine ⟨fun e he => k1 e (h1 e he), ?_, by rw [k3, h3], by rw [k4, h4], by rw [k5, h5]⟩
    intro e he
    rcases k2 e he with h | ⟨x, hx, h⟩
    · rcases h2 e h with h | h
      · exact Or.inl h
      · exact Or.inr ⟨a, List.mem_cons_self, h⟩
    · exact Or.inr ⟨x, List.mem_cons_of_mem _ hx, h⟩

/-- What a definition adds to the type graph. -/
structure DefAdds (A : Ast T) (g : Graph) (d : Nat) (s s' : Ty.State T) : Prop where
  mono : ∀ e ∈ s.edges, e ∈ s'.edges
  kn : s'.kn = s.kn
  done : s'.done = s.done
  viaAny : s'.viaAny = s.viaAny
  inn : ⟨d, A.body d, .ii⟩ ∈ s'.edges
  key : ⟨A.owner d, d, .keyed none⟩ ∈ g.edges → ⟨A.owner d, d, .ii⟩ ∈ s'.edges
  new : ∀ e ∈ s'.edges, e ∈ s.edges ∨ e.flow = .oo ∨ e.src = d ∨ e.src = A.owner d

theorem defEdges_adds (A : Ast T) (s : Ty.State T) (d : Nat) : DefAdds A g d s (defEdges A g s d) := by
  unfold defEdges
  dsimp only
  generalize hk : ((impls g (A.owner d)).any fun e => decide (e.dst = d ∧ e.rel = .keyed none)) = k
  have h0 : ∀ (x : Bool), DefAdds A g d s { s with edges := s.edges ++ [⟨d, A.body d, .ii⟩, ⟨A.body d, d, .oo⟩] ++
      (if k = true then [⟨A.owner d, d, .ii⟩] else []) ++ (if x = true then [⟨d, A.owner d, .oo⟩] else []) } := by
    intro x
    refine ⟨?_, rfl, rfl, rfl, ?_, ?_, ?_⟩
    · intro e he
      exact List.mem_append_left _ (List.mem_append_left _ (List.mem_append_left _ he))
    · exact List.mem_append_left _ (List.mem_append_left _ (List.mem_append_right _ List.mem_cons_self))
    · intro hm
      have : k = true := by
        rw [← hk, List.any_eq_true]
        exact ⟨_, mem_impls.2 ⟨hm, rfl, _, rfl⟩, by simp⟩
      rw [this]
      exact List.mem_append_left _ (List.mem_append_right _ (List.mem_singleton.2 rfl))
    · intro e he
      rcases List.mem_append.1 he with he | he
      · rcases List.mem_append.1 he with he | he
        · rcases List.mem_append.1 he with he | he
          · exact Or.inl he
          · rcases List.mem_cons.1 he with rfl | he
            · exact Or.inr (Or.inr (Or.inl rfl))
            · rw [List.mem_singleton.1 he]; exact Or.inr (Or.inl rfl)
        · split at he
          · rw [List.mem_singleton.1 he]; exact Or.inr (Or.inr (Or.inr rfl))
          · cases he
      · split at he
        · rw [List.mem_singleton.1 he]; exact Or.inr (Or.inl rfl)
        · cases he
  have h1 := h0 (k || (impls g (A.owner d)).length == 1)
  generalize ({ s with edges := s.edges ++ [⟨d, A.body d, .ii⟩, ⟨A.body d, d, .oo⟩] ++
      (if k = true then [⟨A.owner d, d, .ii⟩] else []) ++ (if (k || (impls g (A.owner d)).length == 1) = true then [⟨d, A.owner d, .oo⟩] else []) } : Ty.State T) = s1 at h1 ⊢
  split
  · generalize callArgs _ _ = as
    obtain ⟨k1, k2, k3, k4, k5⟩ := link1s_mono (op := A.owner d) as s1
    refine ⟨fun e he => k1 e (h1.mono e he), by rw [k3, h1.kn], by rw [k4, h1.done], by rw [k5, h1.viaAny], k1 _ h1.inn,
      fun h => k1 _ (h1.key h), ?_⟩
    intro e he
    rcases k2 e he with h | ⟨a, _, rfl⟩
    · exact h1.new e h
    · exact Or.inr (Or.inr (Or.inr rfl))
  · exact h1

/-- ... all definitions. -/
structure DefsAdd (A : Ast T) (g : Graph) (ds : List Nat) (s s' : Ty.State T) : Prop where
  mono : ∀ e ∈ s.edges, e ∈ s'.edges
  kn : s'.kn = s.kn
  done : s'.done = s.done
  viaAny : s'.viaAny = s.viaAny
  inn : ∀ d ∈ ds, ⟨d, A.body d, .ii⟩ ∈ s'.edges
  key : ∀ d ∈ ds, ⟨A.owner d, d, .keyed none⟩ ∈ g.edges → ⟨A.owner d, d, .ii⟩ ∈ s'.edges
  new : ∀ e ∈ s'.edges, e ∈ s.edges ∨ e.flow = .oo ∨ ∃ d ∈ ds, e.src = d ∨ e.src = A.owner d

theorem defsEdges_add (A : Ast T) : ∀ (ds : List Nat) (s : Ty.State T), DefsAdd A g ds s (ds.foldl (defEdges A g) s) := by
  intro ds
  induction ds with
  | nil => intro s; exact ⟨fun _ h => h, rfl, rfl, rfl, by simp, by simp, fun _ h => Or.inl h⟩
  | cons d ds ih =>
    intro s
    have h := defEdges_adds (g := g) A s d
    have k := ih (defEdges A g s d)
    rw [List.foldl_cons]
    refine ⟨fun e he => k.mono e (h.mono e he), by rw [k.kn, h.kn], by rw [k.done, h.done], by rw [k.viaAny, h.viaAny], ?_, ?_, ?_⟩
    · intro x hx
      rcases List.mem_cons.1 hx with rfl | hx
      · exact k.mono _ h.inn
      · exact k.inn x hx
    · intro x hx hm
      rcases List.mem_cons.1 hx with rfl | hx
      · exact k.mono _ (h.key hm)
      · exact k.key x hx hm
    · intro e he
      rcases k.new e he with h1 | h1 | ⟨x, hx, h1⟩
      · rcases h.new e h1 with h1 | h1 | h1
        · exact Or.inl h1
        · exact Or.inr (Or.inl h1)
        · exact Or.inr (Or.inr ⟨d, List.mem_cons_self, h1⟩)
      · exact Or.inr (Or.inl h1)
      · exact Or.inr (Or.inr ⟨x, List.mem_cons_of_mem _ hx, h1⟩)

theorem typeGraph_add (A : Ast T) (root : T) : DefsAdd A g (numbered g isDef) ⟨knStart Y g root, flowEdges g, [], []⟩ (typeGraph A Y g root) :=
  defsEdges_add A _ _

theorem mem_pairs : ∀ {l : List Nat} {a b : Nat} {l1 l2 : List Nat}, l = l1 ++ a :: b :: l2 → (⟨a, b, .oi⟩ : Ty.Edge) ∈ pairs l := by
  intro l a b l1 l2 h
  subst h
  induction l1 with
  | nil => exact List.mem_append_right _ (List.mem_singleton.2 rfl)
  | cons c l1 ih =>
    cases l1 with
    | nil => exact List.mem_append_left _ ih
    | cons c' l1 => exact List.mem_append_left _ ih

theorem pairs_flow : ∀ {l : List Nat} {e : Ty.Edge}, e ∈ pairs l → e.flow = .oi
  | [], _, h => by cases h
  | [_], _, h => by cases h
  | a :: b :: l, e, h => by
    rcases List.mem_append.1 h with h | h
    · exact pairs_flow h
    · rw [List.mem_singleton.1 h]

theorem links_sub {P : Ty.Edge → Prop} (e : Nat) : ∀ (l l1 : List Nat), (∀ op, (l1 ++ l).getLast? = some op → P ⟨op, e, .oo⟩) →
    (∀ l2 a b l3, l1 ++ l = l2 ++ a :: b :: l3 → P ⟨a, b, .oi⟩) → ∀ x ∈ links e l, P x := by
  intro l
  induction l with
  | nil => intro l1 _ _ x hx; cases hx
  | cons b l ih =>
    intro l1 h1 h2 x hx
    cases l with
    | nil =>
      rw [links, List.mem_singleton] at hx
      rw [hx]
      exact h1 b (by simp)
    | cons c l =>
      rw [links] at hx
      rcases List.mem_cons.1 hx with rfl | hx
      · exact h2 l1 b c l rfl
      · refine ih (l1 ++ [b]) ?_ ?_ x hx
        · simpa using h1
        · simpa using h2

theorem flows_mem {e : Nat} (he : e ∈ numbered g isExpr) {x : Ty.Edge} (hx : x ∈ (ast D Y fn g).flows e) : x ∈ flowEdges g := by
  unfold Ast.flows at hx
  change x ∈ (match blocks g e with
    | [] => []
    | b :: bs => (⟨e, b, .ii⟩ : Ty.Edge) :: links e (b :: bs)) at hx
  cases hb : blocks g e with
  | nil => rw [hb] at hx; cases hx
  | cons b bs =>
    rw [hb] at hx
    unfold flowEdges
    rcases List.mem_cons.1 hx with rfl | hx
    · refine List.mem_append_left _ (List.mem_append_left _ (List.mem_append_left _ (List.mem_filterMap.2 ⟨e, he, ?_⟩)))
      rw [hb]; rfl
    · refine links_sub (P := fun x => x ∈ _) e (b :: bs) [] ?_ ?_ x hx
      · intro op ho
        refine List.mem_append_left _ (List.mem_append_left _ (List.mem_append_right _ (List.mem_filterMap.2 ⟨e, he, ?_⟩)))
        rw [hb]
        rw [List.nil_append] at ho
        rw [ho]; rfl
      · intro l2 a c l3 hl
        refine List.mem_append_left _ (List.mem_append_right _ (List.mem_flatMap.2 ⟨e, he, ?_⟩))
        rw [hb]
        exact mem_pairs hl

/-- What flows from input to input, before definitions are linked. -/
theorem flow_ii {x : Ty.Edge} (h : x ∈ flowEdges g) (hf : x.flow = .ii) :
    at' g isExpr x.src = true ∨ ∃ n, g.nodes[n]? = some (.pound 'i') ∧ x.src = opOf g n := by
  unfold flowEdges at h
  rcases List.mem_append.1 h with h | h
  · rcases List.mem_append.1 h with h | h
    · rcases List.mem_append.1 h with h | h
      · obtain ⟨e, he, h1⟩ := List.mem_filterMap.1 h
        obtain ⟨op, _, rfl⟩ := Option.map_eq_some_iff.1 h1
        left
        obtain ⟨y, h2, h3⟩ := mem_numbered.1 he
        exact at'_iff.2 ⟨y, h2, h3⟩
      · obtain ⟨e, he, h1⟩ := List.mem_filterMap.1 h
        obtain ⟨op, _, rfl⟩ := Option.map_eq_some_iff.1 h1
        cases hf
    · obtain ⟨e, he, h1⟩ := List.mem_flatMap.1 h
      rw [pairs_flow h1] at hf; cases hf
  · obtain ⟨n, hn, h1⟩ := List.mem_flatMap.1 h
    obtain ⟨y, h2, h3⟩ := mem_numbered.1 hn
    right
    refine ⟨n, by rw [h2]; rw [of_decide_eq_true h3], ?_⟩
    rcases List.mem_cons.1 h1 with rfl | h1
    · rfl
    · rw [List.mem_singleton.1 h1]

/-- `#i`. -/
theorem flow_input {n : Nat} (h : g.nodes[n]? = some (.pound 'i')) :
    ⟨opOf g n, n, .ii⟩ ∈ flowEdges g ∧ ⟨opOf g n, n, .io⟩ ∈ flowEdges g := by
  have hm : n ∈ numbered g fun x => x = .pound 'i' := mem_numbered.2 ⟨_, h, by simp⟩
  unfold flowEdges
  exact ⟨List.mem_append_right _ (List.mem_flatMap.2 ⟨n, hm, List.mem_cons_self⟩),
    List.mem_append_right _ (List.mem_flatMap.2 ⟨n, hm, List.mem_cons_of_mem _ List.mem_cons_self⟩)⟩

/-! ### What is known -/

theorem setInsert_nodup {t : T} {ts : List T} (h : ts.Nodup) : (setInsert t ts).Nodup := by
  unfold setInsert
  split
  · exact h
  · rename_i hm
    exact List.nodup_append.2 ⟨h, by simp, by
      intro x hx y hy e
      rw [List.mem_singleton.1 hy] at e
      exact hm (e ▸ hx)⟩

theorem keys_nodup : ∀ (es : List Edge) (ts us : List T), ts.Nodup → keys Y es ts = some us → us.Nodup := by
  intro es
  induction es with
  | nil => intro ts us h hk; cases hk; exact h
  | cons e es ih =>
    intro ts us h hk
    rw [keys] at hk
    split at hk
    · exact ih _ _ (setInsert_nodup h) hk
    · cases hk

theorem reduced_sets (hY : Y.all.Nodup) {es : List Edge} {ts : List T} (h : reduced Y es = .inferred ts) : ts.Nodup := by
  unfold reduced at h
  split at h
  · cases hk : keys Y es [] with
    | none => rw [hk] at h; cases h; exact hY
    | some us => rw [hk] at h; cases h; exact keys_nodup _ _ _ List.nodup_nil hk
  · cases h; exact hY

theorem reduced_any {es : List Edge} : reduced Y es ≠ .any := by
  unfold reduced
  split
  · split <;> simp
  · simp

theorem knStart_sets (hY : Y.all.Nodup) {root : T} {n : Nat} {sd : Ty.Side} {ts : List T} (h : knStart Y g root n sd = .inferred ts) : ts.Nodup := by
  cases sd with
  | inp =>
    unfold knStart knInp at h
    dsimp only at h
    split at h
    · cases h
    · split at h
      · cases h; exact hY
      · split at h
        · cases h
        · cases h
        · split at h
          · exact reduced_sets hY h
          · cases h; exact hY
  | out =>
    unfold knStart knOut at h
    dsimp only at h
    split at h
    · cases h
    · cases h; exact hY

theorem leafTy_lit {x : Exp.Node} {t : T} (h : leafTy Y x = some t) : isLit x = true := by
  unfold leafTy at h
  split at h
  · rfl
  · rfl
  · rename_i c
    by_cases hc : c = 'i'
    · subst hc; simp at h
    · simp [isLit, hc]
  · cases h

theorem knStart_any {root : T} {n : Nat} (h : knStart Y g root n .inp = .any) : n ∈ (ast D Y fn g).lits := by
  unfold knStart knInp at h
  dsimp only at h
  split at h
  · cases h
  · split at h
    · cases h
    · rename_i x hx
      split at h
      · cases h
      · rename_i ht _
        exact mem_numbered.2 ⟨x, hx, leafTy_lit ht⟩
      · split at h
        · exact absurd h reduced_any
        · cases h

theorem findSome_all {α β : Type} {f : α → Option β} {l : List α} {a : α} {b : β} (h : a ∈ l) (hf : f a = some b)
    (hu : ∀ x ∈ l, ∀ y, f x = some y → y = b) : l.findSome? f = some b := by
  induction l with
  | nil => cases h
  | cons x l ih =>
    rw [List.findSome?_cons]
    cases hx : f x with
    | some y => rw [hu x List.mem_cons_self y hx]
    | none =>
      rcases List.mem_cons.1 h with rfl | h
      · rw [hf] at hx; cases hx
      · exact ih h fun z hz => hu z (List.mem_cons_of_mem _ hz)

theorem Net.keyTy_eq (N : Net D g) {op d : Nat} {t : String} (h : ⟨op, d, .keyed (some t)⟩ ∈ g.edges) : keyTy g d = some t := by
  unfold keyTy
  refine findSome_all (mem_inEdges.2 ⟨h, rfl⟩) rfl ?_
  intro x hx y hy
  obtain ⟨h1, h2⟩ := mem_inEdges.1 hx
  cases hr : x.rel with
  | normal => rw [hr] at hy; cases hy
  | term i => rw [hr] at hy; cases hy
  | keyed t' =>
    have := N.one h h1 h2 rfl (by rw [hr]; rfl)
    rw [this] at hy
    cases hy; rfl

theorem Net.def_ne (N : Net D g) {d : Nat} {f : String} {ty : Option String} (h : g.nodes[d]? = some (.defn f ty)) : d ≠ 0 := by
  rintro rfl
  rw [N.root] at h
  cases h

theorem Net.known_key (N : Net D g) {root : T} {op d : Nat} {t f : String} {ty : Option String} (h : ⟨op, d, .keyed (some t)⟩ ∈ g.edges)
    (hd : g.nodes[d]? = some (.defn f ty)) : knStart Y g root d .inp = .known (Y.get t) := by
  unfold knStart knInp
  dsimp only
  rw [if_neg (N.def_ne hd), hd]
  dsimp only
  rw [N.keyTy_eq h]

theorem known_leaf {root : T} {n : Nat} {x : Exp.Node} {t : T} (h : g.nodes[n]? = some x) (ht : leafTy Y x = some t) :
    knStart Y g root n .out = .known t := by
  unfold knStart knOut
  dsimp only
  rw [h, Option.bind_some, ht]

/-! ### The locals -/

theorem seed_rest (nodes : List Loc.Node) (names : List String) : (Loc.seed nodes names).seals = Loc.sealEdges ∧
    (Loc.seed nodes names).isSealed = Loc.build.isSealed ∧ ∀ p, Loc.Local.ptr p ∉ (Loc.seed nodes names).locals := by
  have key : ∀ (names : List String) (s : Loc.State), (∀ p, Loc.Local.ptr p ∉ s.locals) →
      (names.foldl (fun s name => Loc.addVar s name []) s).seals = s.seals ∧
      (names.foldl (fun s name => Loc.addVar s name []) s).isSealed = s.isSealed ∧
      ∀ p, Loc.Local.ptr p ∉ (names.foldl (fun s name => Loc.addVar s name []) s).locals := by
    intro names
    induction names with
    | nil => intro s h; exact ⟨rfl, rfl, h⟩
    | cons x names ih =>
      intro s h
      rw [List.foldl_cons]
      obtain ⟨h1, h2, h3⟩ := ih (Loc.addVar s x []) (by
        intro p hp
        unfold Loc.addVar Loc.define at hp
        rcases List.mem_append.1 hp with hp | hp
        · exact h p hp
        · cases List.mem_singleton.1 hp)
      exact ⟨h1, h2, h3⟩
  obtain ⟨h1, h2, h3⟩ := key names Loc.build (by intro p hp; cases hp)
  exact ⟨h1, h2, h3⟩

/-- The state that compiling starts from. -/
theorem begins_noted {A : Ast T} {root : T} {seeds : List (String × T)} {notes : List (Note T)} {s : S T}
    (h : begins A Y g root seeds notes = .ok s) :
    Noted (typeGraph A Y g root) s.tg ∧ s = { start A Y g root seeds with tg := s.tg } := by
  unfold begins at h
  split at h
  · cases h
  · split at h
    · rename_i r hr
      cases h
      exact applyAll_noted notes _ r.1 false r.2 hr
    · cases h

theorem Net.starts (N : Net D g) (hY : Y.all.Nodup) {root : T} {seeds : List (String × T)} {notes : List (Note T)} {s : S T}
    (h : begins (ast D Y fn g) Y g root seeds notes = .ok s) : Start (ast D Y fn g) s := by
  obtain ⟨hn, hs⟩ := begins_noted h
  have ha := typeGraph_add (g := g) (Y := Y) (ast D Y fn g) root
  obtain ⟨l1, l2, l3⟩ := seed_rest (ast D Y fn g).places (seeds.map (·.1))
  have hlg : s.lg = Loc.seed (ast D Y fn g).places (seeds.map (·.1)) := by rw [hs]; rfl
  refine ⟨?_, ?_, ?_, ?_, ?_, ?_, ?_, ?_, ?_, ?_, ?_, ?_, ?_, ?_⟩
  · intro n sd ts hk
    obtain ⟨ts0, h1, h2⟩ := hn.sets n sd ts hk
    rw [ha.kn] at h1
    exact h2 (knStart_sets hY h1)
  · rw [hn.done, ha.done]
  · rw [hn.viaAny, ha.viaAny]
  · intro n hk
    have := hn.any n .inp hk
    rw [ha.kn] at this
    exact knStart_any this
  · intro e he x hx
    rw [hn.edges]
    exact ha.mono x (flows_mem he hx)
  · intro op _ k d hc
    obtain ⟨t, n, h1, h2, h3⟩ := mem_cmds hc
    rcases h3 with ⟨_, _, _, h4⟩ | ⟨f, ty, h4, h5⟩
    · cases h4
    · cases h5
      have hd : d ∈ numbered g isDef := mem_numbered.2 ⟨_, h4, rfl⟩
      rw [hn.edges]
      refine ⟨ha.inn d hd, ?_⟩
      have ho : (ast D Y fn g).owner d = op := N.owner_eq h1
      cases t with
      | none =>
        rw [h2]
        show (⟨op, d, .ii⟩ : Ty.Edge) ∈ _
        rw [hn.edges]
        have := ha.key d hd
        rw [ho] at this
        exact this h1
      | some t =>
        rw [h2]
        show Ty.Settled (s.tg.kn d .inp) (Y.get t)
        refine hn.settled _ _ _ ?_
        rw [ha.kn]
        exact Or.inl (N.known_key h1 h4)
  · intro x hx hf hl
    rw [hn.edges] at hx
    obtain ⟨y, hy1, hy2⟩ := mem_numbered.1 hl
    exfalso
    rcases ha.new x hx with h1 | h1 | ⟨d, hd, h1⟩
    · rcases flow_ii h1 hf with h2 | ⟨n, h2, h3⟩
      · obtain ⟨z, h3, h4⟩ := at'_iff.1 h2
        rw [hy1] at h3
        cases h3
        rw [isExpr_iff.1 h4] at hy2
        cases hy2
      · have h0 : n ≠ 0 := by rintro rfl; rw [N.root] at h2; cases h2
        obtain ⟨e, he, rfl, _⟩ := N.incoming (getElem?_lt h2) h0
        have hr := (N.inv.kind e he _ h2).2 rfl
        obtain ⟨a, b, r⟩ := e
        cases hr
        rw [N.opOf_eq he] at h3
        obtain ⟨u, v, h4, h5, h6⟩ := N.normal_ends he
        rw [h3] at hy1
        rw [hy1] at h4
        cases h4
        dsimp only at h2
        rw [h2] at h5
        cases h5
        cases y <;> first | (cases hy2; done) | (cases h6; done)
    · rw [hf] at h1; cases h1
    · obtain ⟨z, h2, h3⟩ := mem_numbered.1 hd
      obtain ⟨f, ty, rfl⟩ := isDef_iff.1 h3
      rcases h1 with h1 | h1
      · rw [h1, h2] at hy1; cases hy1; cases hy2
      · obtain ⟨op, f', im, h4, _, h5, _⟩ := N.cmd_above h2 rfl
        rw [show (ast D Y fn g).owner d = op from N.owner_eq h4] at h1
        rw [h1, h5] at hy1
        cases hy1; cases hy2
  · intro p hp
    rw [hlg] at hp
    exact l3 p hp
  · rw [hs]; rfl
  · rw [hs]; rfl
  · rw [hs]; rfl
  · rw [hs]; rfl
  · rw [hlg, l1]
  · intro d hd
    obtain ⟨_, _, f, ty, _, h1⟩ := mem_defs hd
    rw [hlg, l2]
    show Loc.build.isSealed ((ast D Y fn g).place (body g d)) = false
    obtain ⟨h2, h3⟩ := N.below_def h1
    have he : (⟨d, d + 1, .normal⟩ : Edge) ∈ g.edges := mem_below.1 (by rw [h2]; exact List.mem_singleton.2 rfl)
    rw [N.body_eq h1, place_eq (getElem?_lt h3), show spot g (d + 1) = _ from N.spot_step he rfl]
    rcases N.mark_other (e := ⟨d, d + 1, .normal⟩) h1 rfl with ⟨_, f', h4⟩ | h4
    · cases h4
    · rw [h4]; rfl

end Verif.Prog
