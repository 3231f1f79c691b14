import Verif.Props.Prog
/-! What the compiler reads of a program (C77). -/
namespace Verif.Prog
open Verif Verif.Exp Verif.Comp
variable {D : Defs} {e : Expr} {g : Graph} {T : Type} [DecidableEq T] {Y : Types T} {fn : String → Option String → Nat}

/-- The nodes on the way from the root of the program to a node. -/
inductive Trail (g : Graph) : List Nat → Nat → Prop
  | root : Trail g [0] 0
  | step {l : List Nat} {a b : Nat} {r : Rel} : Trail g l a → ⟨a, b, r⟩ ∈ g.edges → isTerm r = false → Trail g (l ++ [b]) b

theorem trail_pathTo (N : Net D g) : ∀ (k n : Nat), n ≤ k → n < g.nodes.length → Trail g (pathTo g k n) n := by
  intro k
  induction k with
  | zero =>
    intro n h _
    obtain rfl : n = 0 := by omega
    exact Trail.root
  | succ k ih =>
    intro n h hn
    rw [pathTo]
    by_cases h0 : n = 0
    · rw [if_pos h0, h0]; exact Trail.root
    · rw [if_neg h0]
      obtain ⟨x, hx, rfl, ht⟩ := N.incoming hn h0
      rw [N.above_eq hx ht]
      have := N.lt hx
      exact Trail.step (r := x.rel) (ih x.src (by omega) (by omega)) hx ht

theorem mem_callArgs {pss : List (List (Blk.PTy T))} {as : List Nat} {a : Nat} (h : a ∈ callArgs pss as) :
    ∃ i : Nat, as[i]? = some a ∧ ∀ ps ∈ pss, ∃ p, ps[i]? = some p ∧ atCall p = true := by
  unfold callArgs at h
  obtain ⟨⟨b, i⟩, h1, rfl⟩ := List.mem_map.1 h
  obtain ⟨h2, h3⟩ := List.mem_filter.1 h1
  refine ⟨i, (List.mem_zipIdx_iff_getElem?.1 h2), fun ps hp => ?_⟩
  have h4 := List.all_eq_true.1 h3 ps hp
  cases h5 : ps[i]? with
  | none => dsimp only at h4; rw [h5] at h4; cases h4
  | some p => dsimp only at h4; rw [h5] at h4; exact ⟨p, rfl, h4⟩

/-- An argument that is linked to its operation. -/
def Linked (A : Ast T) (g : Graph) (op a : Nat) : Prop :=
  (∀ x ∈ impls g op, at' g isDef x.dst = true) ∧ a ∈ callArgs ((impls g op).map fun x => (A.params x.dst).map (·.2)) (A.args op)

theorem defEdges_arg {A : Ast T} {s : Ty.State T} {d op a : Nat} (h : (⟨op, a, .ii⟩ : Ty.Edge) ∈ (defEdges A g s d).edges) :
    (⟨op, a, .ii⟩ : Ty.Edge) ∈ s.edges ∨ op = d ∨ a = d ∨ Linked A g op a := by
  unfold defEdges at h
  dsimp only at h
  have h0 : ∀ (x y : Bool), (⟨op, a, .ii⟩ : Ty.Edge) ∈ s.edges ++ [⟨d, A.body d, .ii⟩, ⟨A.body d, d, .oo⟩] ++
      (if x = true then [⟨A.owner d, d, .ii⟩] else []) ++ (if y = true then [⟨d, A.owner d, .oo⟩] else []) →
      (⟨op, a, .ii⟩ : Ty.Edge) ∈ s.edges ∨ op = d ∨ a = d := by
    intro x y h
    simp only [List.mem_append, List.mem_cons, List.not_mem_nil, or_false] at h
    rcases h with ((h | h | h) | h) | h
    · exact Or.inl h
    · cases h; exact Or.inr (Or.inl rfl)
    · cases h
    · split at h
      · rw [List.mem_singleton] at h; cases h; exact Or.inr (Or.inr rfl)
      · cases h
    · split at h
      · rw [List.mem_singleton] at h; cases h
      · cases h
  have key : ∀ x, ((⟨op, a, .ii⟩ : Ty.Edge) ∈ s.edges ∨ op = d ∨ a = d) → (⟨op, a, .ii⟩ : Ty.Edge) ∈ s.edges ∨ op = d ∨ a = d ∨ x := by
    rintro x (h | h | h)
    · exact Or.inl h
    · exact Or.inr (Or.inl h)
    · exact Or.inr (Or.inr (Or.inl h))
  split at h
  · rename_i hall
    rcases (link1s_mono _ _).2.1 _ h with h | ⟨b, hb, h⟩
    · exact key _ (h0 _ _ h)
    · cases h
      exact Or.inr (Or.inr (Or.inr ⟨fun x hx => by simpa using List.all_eq_true.1 hall x hx, hb⟩))
  · exact key _ (h0 _ _ h)

theorem defsEdges_arg {A : Ast T} {op a : Nat} : ∀ (ds : List Nat) (s : Ty.State T), (⟨op, a, .ii⟩ : Ty.Edge) ∈ (ds.foldl (defEdges A g) s).edges →
    (⟨op, a, .ii⟩ : Ty.Edge) ∈ s.edges ∨ op ∈ ds ∨ a ∈ ds ∨ Linked A g op a
  | [], _, h => Or.inl h
  | d :: ds, s, h => by
    rw [List.foldl_cons] at h
    rcases defsEdges_arg ds _ h with h | h | h | h
    · rcases defEdges_arg h with h | h | h | h
      · exact Or.inl h
      · exact Or.inr (Or.inl (by rw [h]; exact List.mem_cons_self))
      · exact Or.inr (Or.inr (Or.inl (by rw [h]; exact List.mem_cons_self)))
      · exact Or.inr (Or.inr (Or.inr h))
    · exact Or.inr (Or.inl (List.mem_cons_of_mem _ h))
    · exact Or.inr (Or.inr (Or.inl (List.mem_cons_of_mem _ h)))
    · exact Or.inr (Or.inr (Or.inr h))

/-- **C77**: what the compiler reads of an expanded program is what the program has: the path to a node is the nodes on the way
to it from the root; a definition's parameters are those it was defined with, if a command has one implementation for a type;
and an argument other than `#i` gets the input of its block before the implementation is known only if all implementations are
definitions that evaluate it at the call. -/
theorem compiler_reads_the_program (hg : init D e = .ok g) (root : T) :
    (∀ n < g.nodes.length, Trail g ((ast D Y fn g).path n) n) ∧
    (∀ d f ty, g.nodes[d]? = some (.defn f ty) → (∀ im ∈ D.impls f, ∀ im' ∈ D.impls f, im.ty = im'.ty → im = im') →
      ∃ im ∈ D.impls f, im.ty = ty ∧ ∃ ps b, im.defn = some (ps, b) ∧
        (ast D Y fn g).params d = ps.map fun p => (p.name, paramTy Y p.ty)) ∧
    ∀ op f a (i : Nat), g.nodes[op]? = some (.op f) → ((ast D Y fn g).args op)[i]? = some a → g.nodes[a]? ≠ some (.pound 'i') →
      (⟨op, a, .ii⟩ : Ty.Edge) ∈ (typeGraph (ast D Y fn g) Y g root).edges →
      ∀ d t, (⟨op, d, .keyed t⟩ : Edge) ∈ g.edges → (∃ f ty, g.nodes[d]? = some (.defn f ty)) ∧
        ∃ p, ((ast D Y fn g).params d)[i]? = some p ∧ p.2 ≠ .expr := by
  have N := net hg
  refine ⟨fun n hn => trail_pathTo N n n (Nat.le_refl _) hn, ?_, ?_⟩
  · intro d f ty hd huniq
    obtain ⟨op, f', im, _, him, _, h1, _⟩ := N.cmd_above hd rfl
    unfold cmdNode at h1
    split at h1
    · cases h1
    · rename_i b hb
      cases h1
      refine ⟨im, him, rfl, b.1, b.2, hb, ?_⟩
      show paramsAt D Y g d = _
      unfold paramsAt
      rw [hd]
      dsimp only
      have hp : paramsOf D f im.ty = b.1 := by
        unfold paramsOf
        cases hfind : (D.impls f).find? fun x => x.ty = im.ty ∧ x.defn.isSome with
        | none => exact absurd (List.find?_eq_none.1 hfind im him) (by simp [hb])
        | some x =>
          have hx := List.find?_some hfind
          simp only [decide_eq_true_eq] at hx
          obtain rfl := huniq x (List.mem_of_find?_eq_some hfind) im him hx.1
          obtain ⟨xt, xd⟩ := x
          dsimp only at hb
          subst hb
          rfl
      rw [hp]
  · intro op f a i hop hai hni he d t hd
    have harg : a ∈ terms g op false := List.mem_of_getElem? hai
    obtain ⟨xa, hxa, hia⟩ := N.arg_node harg
    rcases defsEdges_arg _ _ he with h | h | h | h
    · exfalso
      unfold flowEdges at h
      simp only [List.mem_append, List.mem_filterMap, List.mem_flatMap] at h
      rcases h with ((⟨n, h1, h2⟩ | ⟨n, h1, h2⟩) | ⟨n, h1, h2⟩) | ⟨n, h1, h2⟩
      · obtain ⟨b, h3, h4⟩ := Option.map_eq_some_iff.1 h2
        cases h4
        obtain ⟨y, h5, h6⟩ := mem_numbered.1 h1
        rw [hop] at h5
        cases h5
        cases h6
      · obtain ⟨b, h3, h4⟩ := Option.map_eq_some_iff.1 h2
        cases h4
      · exact absurd (pairs_flow h2) (by simp)
      · simp only [List.mem_cons, List.not_mem_nil, or_false] at h2
        rcases h2 with h2 | h2
        · cases h2
          obtain ⟨y, h5, h6⟩ := mem_numbered.1 h1
          exact hni (by rw [h5, of_decide_eq_true h6])
        · cases h2
    · obtain ⟨y, h5, h6⟩ := mem_numbered.1 h
      rw [hop] at h5; cases h5; cases h6
    · obtain ⟨y, h5, h6⟩ := mem_numbered.1 h
      rw [hxa] at h5; cases h5
      cases xa <;> first | (cases h6; done) | (cases hia; done)
    · obtain ⟨h1, h2⟩ := h
      obtain ⟨j, h3, h4⟩ := mem_callArgs h2
      have hij : j = i := nodup_at (N.terms_nodup op false) h3 hai
      subst hij
      have hm := mem_impls.2 ⟨hd, rfl, t, rfl⟩
      obtain ⟨y, h5, h6⟩ := at'_iff.1 (h1 _ hm)
      refine ⟨?_, ?_⟩
      · cases y <;> first | exact ⟨_, _, h5⟩ | cases h6
      · obtain ⟨p, h7, h8⟩ := h4 _ (List.mem_map.2 ⟨_, hm, rfl⟩)
        rw [List.getElem?_map] at h7
        obtain ⟨q, h9, rfl⟩ := Option.map_eq_some_iff.1 h7
        exact ⟨q, h9, by intro h; rw [h] at h8; cases h8⟩

def netOf (p : Graph → Bool) : Bool := match init someDefs counting with
  | .ok g => p g
  | .error _ => false

/-- For C77, `ls | fold 0 { … } | foo 7 | + #i` again: `foo` is node 5, its argument 6 is linked to it, its definition is node 19
and has the parameter `x`; the implementations of `+` in its body have a path of six nodes. -/
example : netOf (fun g =>
    let A := ast someDefs (types someTy) someFn g
    decide (g.nodes[5]? = some (.op "foo")) && decide ((A.args 5)[0]? = some 6) && decide ((A.params 19).map (·.1) = ["x"]) &&
    decide (g.nodes[19]? = some (.defn "foo" none)) && decide (A.path 32 = [0, 5, 19, 20, 21, 32]) &&
    (typeGraph A (types someTy) g .nil).edges.any fun e => decide (e = ⟨5, 6, .ii⟩)) = true := by decide +kernel

end Verif.Prog
