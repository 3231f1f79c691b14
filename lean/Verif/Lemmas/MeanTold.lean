import Verif.Lemmas.TalkPlan
import Verif.Props.Names
/-! The compiled blocks are those of the program. -/
namespace Verif.Comp
open Verif
set_option linter.unusedSectionVars false
variable {T V U : Type} [DecidableEq T]

section
variable {A : Ast T}

theorem passes_zip {D : List Scope.DefAt} {d : Nat} : ∀ {params : List ((Nat × T) × Argument T)} {names : List String} {args : List Nat},
    params.length = names.length →
    (∀ (j : Nat) slot w a, params[j]? = some ((slot, w), a) → ∃ name, names[j]? = some name ∧ args[j]? = some a.node ∧ D[slot]? = some (A.place (A.body d), name)) →
    Passes A D d params (names.zip args)
  | [], [], _, _, _ => .nil
  | [], _ :: _, _, h, _ => by cases h
  | _ :: _, [], _, h, _ => by cases h
  | ((slot, w), a) :: params, name :: names, args, hl, h => by
    obtain ⟨name', h1, h2, h3⟩ := h 0 slot w a rfl
    cases h1
    cases args with
    | nil => cases h2
    | cons b args =>
      cases h2
      rw [List.zip_cons_cons]
      exact .cons h3 (passes_zip (Nat.succ.inj hl) fun j slot w a hj => h (j + 1) slot w a hj)

theorem codeAt_mem {s : S T} (hn : (s.codes.map (·.1)).Nodup) {op : Nat} {x : T × T × Code T} (h : (op, x) ∈ s.codes) : s.codeAt op = some x := by
  unfold S.codeAt
  cases hf : s.codes.find? (fun x => x.1 = op) with
  | none => exact absurd (List.find?_eq_none.1 hf _ h) (by simp)
  | some y =>
    have h1 := List.mem_of_find?_eq_some hf
    have h2 := List.find?_some hf
    obtain ⟨o, y⟩ := y
    have h2 : o = op := of_decide_eq_true h2
    subst h2
    rw [nodup_fst hn h1 h]; rfl

theorem Firm.told {C : Talks T U} {E : Exec T V} {Q : Sense T V} {g : Plan U → Plan V} {names : List String} {m : Nat} {s c : S T}
    {D : List Scope.DefAt} {H : List (List Nat)} (hw : A.Wf names) (hpl : A.Placed)
    (hin : ∀ d ∈ A.defs, ∃ m rest, A.place (A.body d) = m :: rest ++ A.place (A.owner d))
    (hv : Vars A (C.builtins A) E m c D H) (hf : Firm A (C.builtins A) s c) (hic : Inv A c)
    (hty : Q.ty = E.ty) (hlit : Q.lit = E.lit) (hskip : Q.skip = skips c)
    (hplan : ∀ i op t, Q.plan i op t = ((C i op (A.args op).length t).plan A (fun n sd => (c.tg.kn n sd).ty) op (A.args op)).map g)
    (hreads : ∀ p, (g p).reads = p.reads) (hgv : ∀ p, (g p).vars = p.vars)
    (hact : ∀ i op t u args vars (p : Plan U), p.act = (C i op (A.args op).length t).closure u args → ∀ x, (g p).act x = E.act i op t u args vars x) :
    Told A E Q c D := by
  have hc := hpl.ok hw
  have hkeys : (c.codes.map (·.1)).Nodup := by
    have := hv.world.nodup
    rw [← hv.world.codes, List.map_map] at this
    exact this
  have code : ∀ x ∈ c.codes, ∃ (k : Nat) (K : List Nat), CodeOk A (C.builtins A) E c D K (c.prior k) x.1 x.2.1 x.2.2.1 x.2.2.2 := by
    intro x hx
    obtain ⟨k, hk⟩ := List.getElem?_of_mem hx
    have hl := (List.getElem?_eq_some_iff.1 hk).1
    rw [← hv.world.hist] at hl
    exact ⟨k, H[k], hv.world.ok k x _ hk (List.getElem?_eq_getElem hl)⟩
  refine ⟨hty, hlit, fun i j x hx h1 h2 => hv.same hx h1 h2, fun op t u code' hx => ⟨(hf.codes _ hx).op, ?_, fun a ha => ?_⟩⟩
  · obtain ⟨s0, hp, hr, he⟩ := (hf.codes _ hx).run
    have ho := (hf.codes _ hx).op
    have hu : (c.tg.kn op .out).ty = some u := by
      refine ty_of_settled (hic.steps (op, t, u) ?_).2.2
      rw [← hv.world.codes]
      exact List.mem_map.2 ⟨_, hx, rfl⟩
    dsimp only at hr he ho
    unfold compileBlock at hr
    unfold codeOf at he
    cases hg : A.getImpl op t with
    | none => rw [hg] at hr; cases hr
    | some im =>
      rw [hg] at hr he
      cases im with
      | intrinsic i =>
        dsimp only at hr he
        subst he
        obtain ⟨r, an, h1, h2, h3⟩ := runBuiltin_end hr
        obtain ⟨p, h4, h5, h6, h7⟩ := Talk.planned (D := D) (τ := fun n sd => (c.tg.kn n sd).ty) hp.sane hw (fun n sd u h => ty_within hp.sane hp.within h)
          (fun name n slot w hn h => (hv.locs.there hc (hn.lt hw) (hp.onward.variableAt (hn.lt hw) h)).1) (C i op (A.args op).length t) (A.args op)
          (r := .start (A.args op)) rfl (fun _ h => h) h1 h2 h3 hu
        refine .builtin i _ _ (g p) hg (by rw [hplan, h4]; rfl) (by rw [hreads]; exact h5) (fun x => hact i op t u _ _ p h6 x) (by rw [hgv]; exact h7)
      | defn d =>
        dsimp only at he
        have hb := (hf.codes _ hx).bound
        dsimp only at hb
        obtain ⟨k, K, hok⟩ := code _ hx
        dsimp only at hok
        subst he
        obtain ⟨hd, hbody⟩ : d ∈ A.defs ∧ A.body d ∈ A.exprs := by
          cases hok with
          | call _ _ body hd => exact ⟨hd, body.mem⟩
        have how : A.owner d = op := by
          obtain ⟨k, hk⟩ := getImpl_mem hg
          exact hw.owner op ho _ hk d rfl
        refine .call d _ hg ?_ (how ▸ hin d hd)
        have hat := codeAt_mem hkeys hx
        have hb := hb d _ rfl
        generalize (s0.bindsOf d).zip ((s0.callsiteOf d).filterMap (callArgument A s0 t (A.args (A.owner d)))) = params at hat hb ⊢
        rcases hb with h | ⟨h1, h2⟩
        · have : passed A Q op d = [] := by
            unfold passed
            rw [hskip, if_pos]
            unfold skips
            rw [hat, h]
          rw [this, h]
          exact .nil
        · have hz : Passes A D d params (((A.params d).map (·.1)).zip (A.args op)) := passes_zip (by rw [List.length_map]; exact h1) fun j slot w a hj => by
            obtain ⟨name, p, h3, h4, h5⟩ := h2 j slot w a hj
            exact ⟨name, by rw [List.getElem?_map, h3]; rfl, h4, (hv.locs.there hc (hw.exprs_lt _ hbody) h5).1⟩
          unfold passed
          split
          · rename_i hs
            rw [hskip] at hs
            unfold skips at hs
            rw [hat] at hs
            split at hs
            · rename_i heq
              injection heq with heq
              injection heq with _ heq
              injection heq with _ heq
              injection heq with _ heq
              rw [heq]; exact .nil
            · cases hs
          · exact hz
  · obtain ⟨h1, h2⟩ := (hf.codes _ hx).holds a ha
    dsimp only at h1 h2
    unfold holdOf at h1
    refine ⟨fun v hvar => ?_, fun hvar => ?_⟩
    · rw [hvar] at h1
      dsimp only at h1
      split at h1
      · rename_i slot hg
        obtain ⟨w, h3, h4⟩ := Option.map_eq_some_iff.1 h1
        have hnm := Ast.place_mem (hw.arg_lt _ _ h2)
        have := hv.locs.lex.resolves hc v _ _ (Nat.le_refl _) hnm
        have h5 := get_any hg
        rw [hv.locs.any hc hnm] at h5
        obtain ⟨l, h6, h7⟩ := Option.map_eq_some_iff.1 h5
        injection h7 with h7
        rw [h6, Option.map_some, h7] at this
        exact ⟨slot, w, h4.symm, this⟩
      · cases h1
    · rw [hvar] at h1
      exact (Option.some.inj h1).symm

end

end Verif.Comp
