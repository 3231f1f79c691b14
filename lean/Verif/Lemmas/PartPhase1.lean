import Verif.Lemmas.PartGrow
namespace Verif.Part

def key (n : Node) : Bool × String × Bool := (n.item.isBoundary, n.name, n.item.isType)

def keyItem (k : Bool × String × Bool) : Option (String × Bool) := if k.1 then none else some k.2

theorem itemsOf_key (l : List Node) : itemsOf l = (l.map key).filterMap keyItem := by
  unfold itemsOf
  rw [List.filterMap_map]; rfl

theorem keeps_keys {ps qs : Parts} (k : Keeps ps qs) : qs.map key = ps.map key ++ (qs.drop ps.length).map key := by
  have hl := keeps_length k
  conv => lhs; rw [← List.take_append_drop ps.length qs, List.map_append]
  congr 1
  apply List.ext_getElem?
  intro i
  rw [List.getElem?_map, List.getElem?_map, List.getElem?_take]
  by_cases h : i < ps.length
  · rw [if_pos h]
    obtain ⟨n', e, a1, _, a3, a4, _⟩ := k i _ (List.getElem?_eq_getElem h)
    rw [e, List.getElem?_eq_getElem h]
    simp [key, a1, a3, a4]
  · rw [if_neg h, List.getElem?_eq_none (by omega)]

theorem keeps_items {ps qs : Parts} (k : Keeps ps qs) {L : Nat} (hL : L ≤ ps.length) :
    itemsOf (qs.drop L) = itemsOf (ps.drop L) ++ itemsOf (qs.drop ps.length) := by
  rw [itemsOf_key, itemsOf_key, itemsOf_key, List.map_drop, keeps_keys k, List.drop_append_of_le_length (by simpa using hL),
    List.filterMap_append, List.map_drop, List.map_drop]

theorem itemsOf_bnd (l : List Node) (h : ∀ n ∈ l, n.item.isBoundary = true) : itemsOf l = [] := by
  induction l with
  | nil => rfl
  | cons a l ih =>
    unfold itemsOf at *
    simp [h a (by simp)]
    intro n hn; exact h n (by simp [hn])

theorem adds_drop {ps qs : Parts} {b : Nat} {it : Item} {ns : List String} {is' : List Nat}
    (h : Adds ps qs b it ns is') : qs.drop ps.length = ns.map fun nm => ⟨nm, some b, it⟩ := by
  apply List.ext_getElem?
  intro i
  rw [List.getElem?_drop, List.getElem?_map]
  by_cases hi : i < ns.length
  · rw [h.new i _ (List.getElem?_eq_getElem hi), List.getElem?_eq_getElem hi]; rfl
  · rw [List.getElem?_eq_none (by rw [h.len]; omega), List.getElem?_eq_none (l := ns) (by omega)]; rfl

/-- Who sets the imports of item `i`, which comes from file `f` of partition `b`. -/
def Owner (imports : List (Nat × List Import × List Nat)) (f : FileDef) (b i : Nat) : Prop :=
  if f.imports = [] then ∀ e ∈ imports, i ∉ e.2.2 else ∃ ns, (b, f.imports, ns) ∈ imports ∧ i ∈ ns

/-- The state of the first phase after the files `done`, started with `L` nodes. -/
structure Inv (ps0 : Parts) (done : List (List String × FileDef)) (s : Acc) : Prop where
  wf : Wf s.ps
  keeps : Keeps ps0 s.ps
  keys : AMap.Wf s.exports
  ekeys : ∀ b es, AMap.get s.exports b = some es → ∃ q : Node, s.ps[b]? = some q ∧ q.item.isBoundary = true
  exps : ∀ b e, (∃ es, AMap.get s.exports b = some es ∧ e ∈ es) ↔
    ∃ p f, (p, f) ∈ done ∧ BPath s.ps 0 p b ∧ e ∈ f.exports
  imps : ∀ b is' ns, (b, is', ns) ∈ s.imports → is' ≠ [] ∧ (∃ q : Node, s.ps[b]? = some q ∧ q.item.isBoundary = true) ∧
    ∀ i ∈ ns, ps0.length ≤ i ∧ ∃ n : Node, s.ps[i]? = some n ∧ n.item.isBoundary = false
  disj : s.imports.Pairwise fun a c => ∀ i ∈ a.2.2, i ∉ c.2.2
  items : itemsOf (s.ps.drop ps0.length) = done.flatMap fun x => fileItems x.2
  placed : ∀ p f, (p, f) ∈ done → ∃ b, BPath s.ps 0 p b ∧ ∀ nm k, (nm, k) ∈ fileItems f →
    ∃ (i : Nat) (n : Node), ps0.length ≤ i ∧ s.ps[i]? = some n ∧ n.name = nm ∧ n.parent = some b ∧
      n.item.isBoundary = false ∧ n.item.isType = k ∧ Owner s.imports f b i
  origin : ∀ (i : Nat) (n : Node), ps0.length ≤ i → s.ps[i]? = some n → n.item.isBoundary = false →
    n.item.imports = [] ∧ ∃ p f b, (p, f) ∈ done ∧ BPath s.ps 0 p b ∧ n.parent = some b ∧
      (n.name, n.item.isType) ∈ fileItems f ∧ Owner s.imports f b i
  exOld : ∀ c x, Exported s.ps c x → Exported ps0 c x

theorem inv_init {ps : Parts} (w : Wf ps) : Inv ps [] ⟨ps, [], []⟩ := by
  refine ⟨w, keeps_refl _, by simp [AMap.Wf], ?_, ?_, ?_, .nil, by simp [itemsOf], ?_, ?_, fun _ _ h => h⟩
  · intro b es h; cases h
  · intro b e; constructor
    · rintro ⟨es, h, _⟩; cases h
    · rintro ⟨p, f, h, _⟩; cases h
  · intro b is' ns h; cases h
  · intro p f h; cases h
  · intro i n hi hn
    have := (List.getElem?_eq_some_iff.1 hn).1
    simp only at this; omega

/-- Adding boundaries keeps the invariant. -/
theorem inv_grow {ps0 : Parts} {done : List (List String × FileDef)} {s : Acc} (v : Inv ps0 done s) {qs : Parts}
    (w : Wf qs) (k : Keeps s.ps qs)
    (hn : ∀ (i : Nat) (n : Node), s.ps.length ≤ i → qs[i]? = some n → n.item.isBoundary = true)
    (hx : ∀ c x, Exported qs c x → Exported s.ps c x) : Inv ps0 done { s with ps := qs } := by
  have hL := keeps_length v.keeps
  have bp : ∀ p f b, (p, f) ∈ done → BPath qs 0 p b → BPath s.ps 0 p b := by
    intro p f b hm hb
    obtain ⟨c, hc, _⟩ := v.placed p f hm
    have := bpath_unique w.forest hb (keeps_bpath k hc)
    subst this; exact hc
  refine ⟨w, keeps_trans v.keeps k, v.keys, ?_, ?_, ?_, v.disj, ?_, ?_, ?_, fun c x h => v.exOld c x (hx c x h)⟩
  · intro b es h
    obtain ⟨q, e, hb⟩ := v.ekeys b es h
    obtain ⟨q', e', _, _, a3, _⟩ := k b q e
    exact ⟨q', e', by rw [a3, hb]⟩
  · intro b e
    simp only [v.exps]
    constructor
    · rintro ⟨p, f, h1, h2, h3⟩; exact ⟨p, f, h1, keeps_bpath k h2, h3⟩
    · rintro ⟨p, f, h1, h2, h3⟩; exact ⟨p, f, h1, bp p f b h1 h2, h3⟩
  · intro b is' ns h
    obtain ⟨h1, ⟨q, e, hb⟩, h3⟩ := v.imps b is' ns h
    obtain ⟨q', e', _, _, a3, _⟩ := k b q e
    refine ⟨h1, ⟨q', e', by rw [a3, hb]⟩, fun i hi => ?_⟩
    obtain ⟨h4, n, hn, hnb⟩ := h3 i hi
    obtain ⟨n', en, _, _, b3, _⟩ := k i n hn
    exact ⟨h4, n', en, by rw [b3, hnb]⟩
  · simp only
    rw [keeps_items k hL, v.items, itemsOf_bnd, List.append_nil]
    intro n hm
    obtain ⟨i, hi⟩ := List.mem_iff_getElem?.1 hm
    rw [List.getElem?_drop] at hi
    exact hn _ n (by omega) hi
  · intro p f hm
    obtain ⟨b, hb, h⟩ := v.placed p f hm
    refine ⟨b, keeps_bpath k hb, fun nm kd hk => ?_⟩
    obtain ⟨i, n, h1, h2, h3, h4, h5, h6, h7⟩ := h nm kd hk
    obtain ⟨n', e, a1, a2, a3, a4, _⟩ := k i n h2
    exact ⟨i, n', h1, e, by rw [a1, h3], by rw [a2, h4], by rw [a3, h5], by rw [a4, h6], h7⟩
  · intro i n hi hni hb
    by_cases hlt : i < s.ps.length
    · obtain ⟨m, hm⟩ : ∃ m : Node, s.ps[i]? = some m := ⟨_, List.getElem?_eq_getElem hlt⟩
      obtain ⟨n', e, a1, a2, a3, a4, a5, _⟩ := k i m hm
      simp only at hni
      rw [hni] at e; cases e
      obtain ⟨h1, p, f, b, h2, h3, h4, h5, h6⟩ := v.origin i m hi hm (by rw [← a3, hb])
      exact ⟨by rw [a5, h1], p, f, b, h2, keeps_bpath k h3, by rw [a2, h4], by rw [a1, a4]; exact h5, h6⟩
    · rw [hn i n (by omega) hni] at hb; cases hb

theorem getElem?_range'_mem {a n i : Nat} : i ∈ List.range' a n ↔ a ≤ i ∧ i < a + n := by
  rw [List.mem_range'_1]

/-- One more file. -/
theorem inv_file {ps0 : Parts} {done : List (List String × FileDef)} {s : Acc} (v : Inv ps0 done s) {p : List String}
    {b : Nat} {q : Node} (hbp : BPath s.ps 0 p b) (hq : s.ps[b]? = some q) (hb : q.item.isBoundary = true) (f : FileDef) :
    addFileDef b s f ≠ .error .panic ∧
    ∀ s', addFileDef b s f = .ok s' → Inv ps0 (done ++ [(p, f)]) s' ∧ Keeps s.ps s'.ps := by
  obtain ⟨t1, t2⟩ := addTypes_spec f.types s.ps b q v.wf hq hb
  unfold addFileDef
  cases hr : addTypes s.ps b f.types with
  | error x =>
    rw [hr] at t1
    exact ⟨by simp only [Except.map]; intro e; cases e; exact t1 rfl, fun s' h => by cases h⟩
  | ok y =>
    obtain ⟨qs, ts⟩ := y
    have A := t2 _ _ hr
    refine ⟨by simp [Except.map], fun s' h => ?_⟩
    simp only [Except.map, Except.ok.injEq] at h
    obtain ⟨q1, e1, _, _, c3, _⟩ := A.keeps b q hq
    have B := addImpls_spec f.impls qs b q1 A.wf e1 (by rw [c3, hb])
    generalize hrs : (addImpls qs b f.impls).1 = rs at *
    generalize his : (addImpls qs b f.impls).2 = js at *
    have k : Keeps s.ps rs := keeps_trans A.keeps B.keeps
    have hL := keeps_length v.keeps
    have hlen : rs.length = s.ps.length + f.types.length + f.impls.length := by rw [B.len, A.len]
    have hlenq : qs.length = s.ps.length + f.types.length := A.len
    -- the new nodes
    have newT : ∀ (j : Nat) (nm : String), f.types[j]? = some nm → ∃ n : Node, rs[s.ps.length + j]? = some n ∧ n.name = nm ∧
        n.parent = some b ∧ n.item = .type_ [] := by
      intro j nm hj
      obtain ⟨n', e, a1, a2, a3, a4, a5, _⟩ := B.keeps _ _ (A.new j nm hj)
      refine ⟨n', e, a1, a2, ?_⟩
      cases hi : n'.item <;> simp_all [Item.isBoundary, Item.isType, Item.imports]
    have newI : ∀ (j : Nat) (nm : String), f.impls[j]? = some nm → rs[qs.length + j]? = some ⟨nm, some b, .impl []⟩ := B.new
    have split : ∀ (i : Nat) (n : Node), s.ps.length ≤ i → rs[i]? = some n → n.item.isBoundary = false ∧ n.item.imports = [] ∧
        n.parent = some b ∧ (n.name, n.item.isType) ∈ fileItems f := by
      intro i n hi hn
      have hlt := (List.getElem?_eq_some_iff.1 hn).1
      by_cases h1 : i < qs.length
      · have hj : i - s.ps.length < f.types.length := by omega
        obtain ⟨m, e, a1, a2, a3⟩ := newT _ _ (List.getElem?_eq_getElem hj)
        rw [show s.ps.length + (i - s.ps.length) = i by omega, hn] at e
        cases e
        rw [a3]
        refine ⟨rfl, rfl, a2, ?_⟩
        unfold fileItems
        refine List.mem_append_left _ (List.mem_map.2 ⟨n.name, ?_, rfl⟩)
        rw [a1]; exact List.getElem_mem _
      · have hj : i - qs.length < f.impls.length := by omega
        have e := newI _ _ (List.getElem?_eq_getElem hj)
        rw [show qs.length + (i - qs.length) = i by omega, hn] at e
        cases e
        refine ⟨rfl, rfl, rfl, ?_⟩
        unfold fileItems
        exact List.mem_append_right _ (List.mem_map.2 ⟨_, List.getElem_mem _, rfl⟩)
    have ids : ∀ i, i ∈ ts ++ js ↔ s.ps.length ≤ i ∧ i < rs.length := by
      intro i
      rw [List.mem_append, A.ids, B.ids, getElem?_range'_mem, getElem?_range'_mem]
      omega
    have bp : ∀ p' f' b', (p', f') ∈ done → BPath rs 0 p' b' → BPath s.ps 0 p' b' := by
      intro p' f' b' hm hb'
      obtain ⟨c, hc, _⟩ := v.placed p' f' hm
      have := bpath_unique B.wf.forest hb' (keeps_bpath k hc)
      subst this; exact hc
    have bp0 : ∀ b', BPath rs 0 p b' → b' = b := fun b' h => bpath_unique B.wf.forest h (keeps_bpath k hbp)
    -- owners
    have own : ∀ i, s.ps.length ≤ i → i < rs.length → Owner s'.imports f b i := by
      intro i hi hi2
      unfold Owner
      subst h
      simp only
      by_cases hf : f.imports = []
      · rw [if_pos hf]
        simp only [hf, List.isEmpty_nil, Bool.or_true, if_true]
        intro e he hie
        obtain ⟨n, hn, _⟩ := ((v.imps e.1 e.2.1 e.2.2 he).2.2 i hie).2
        have := (List.getElem?_eq_some_iff.1 hn).1
        omega
      · rw [if_neg hf]
        have hne : (ts ++ js).isEmpty = false := by
          cases hx : (ts ++ js) with
          | nil => have := (ids i).2 ⟨hi, hi2⟩; rw [hx] at this; cases this
          | cons => rfl
        have hne2 : f.imports.isEmpty = false := by
          cases hx : f.imports with
          | nil => exact absurd hx hf
          | cons => rfl
        rw [hne, hne2]
        simp only [Bool.or_false, Bool.false_eq_true, if_false]
        exact ⟨ts ++ js, by simp, (ids i).2 ⟨hi, hi2⟩⟩
    have ownOld : ∀ f' b' (i : Nat), i < s.ps.length → Owner s.imports f' b' i → Owner s'.imports f' b' i := by
      intro f' b' i hi ho
      subst h
      unfold Owner at ho ⊢
      simp only
      by_cases hc : ((ts ++ js).isEmpty || f.imports.isEmpty) = true
      · rw [if_pos hc]; exact ho
      · rw [if_neg hc]
        by_cases hf : f'.imports = []
        · rw [if_pos hf] at ho ⊢
          intro e he
          rcases List.mem_append.1 he with h | h
          · exact ho e h
          · rw [List.mem_singleton] at h; subst h
            intro hie
            have := (ids i).1 hie
            omega
        · rw [if_neg hf] at ho ⊢
          obtain ⟨ns, h1, h2⟩ := ho
          exact ⟨ns, List.mem_append_left _ h1, h2⟩
    have hps : s'.ps = rs := by subst h; rfl
    refine ⟨⟨by rw [hps]; exact B.wf, by rw [hps]; exact keeps_trans v.keeps k, ?_, ?_, ?_, ?_, ?_, ?_, ?_, ?_, ?_⟩, by rw [hps]; exact k⟩
    · subst h
      simp only
      split
      · exact v.keys
      · exact AMap.wf_insert v.keys _ _
    · intro b' es hg
      rw [hps]
      have : b' = b ∨ ∃ es', AMap.get s.exports b' = some es' := by
        subst h
        simp only at hg
        split at hg
        · exact .inr ⟨_, hg⟩
        · rw [AMap.get_insert] at hg
          by_cases hbb : b' = b
          · exact .inl hbb
          · rw [if_neg (fun h => hbb h.symm)] at hg; exact .inr ⟨_, hg⟩
      rcases this with rfl | ⟨es', h'⟩
      · obtain ⟨q', e', _, _, a3, _⟩ := k b' q hq
        exact ⟨q', e', by rw [a3, hb]⟩
      · obtain ⟨q0, e, hb'⟩ := v.ekeys b' es' h'
        obtain ⟨q', e', _, _, a3, _⟩ := k b' q0 e
        exact ⟨q', e', by rw [a3, hb']⟩
    · intro b' e
      have old := v.exps b' e
      have step : (∃ es, AMap.get s'.exports b' = some es ∧ e ∈ es) ↔
          (∃ es, AMap.get s.exports b' = some es ∧ e ∈ es) ∨ (b' = b ∧ e ∈ f.exports) := by
        subst h
        simp only
        by_cases hfe : f.exports.isEmpty = true
        · rw [if_pos hfe]
          rw [List.isEmpty_iff] at hfe
          simp [hfe]
        · rw [if_neg hfe, AMap.get_insert]
          by_cases hbb : b = b'
          · subst hbb
            rw [if_pos rfl]
            cases hg : AMap.get s.exports b with
            | none => simp
            | some es => simp
          · rw [if_neg hbb]
            constructor
            · exact .inl
            · rintro (h | ⟨h, _⟩)
              · exact h
              · exact absurd h.symm hbb
      rw [step, old, hps]
      constructor
      · rintro (⟨p', f', h1, h2, h3⟩ | ⟨rfl, he⟩)
        · exact ⟨p', f', by simp [h1], keeps_bpath k h2, h3⟩
        · exact ⟨p, f, by simp, keeps_bpath k hbp, he⟩
      · rintro ⟨p', f', h1, h2, h3⟩
        rcases List.mem_append.1 h1 with h1 | h1
        · exact .inl ⟨p', f', h1, bp p' f' b' h1 h2, h3⟩
        · rw [List.mem_singleton] at h1; cases h1
          exact .inr ⟨bp0 b' h2, h3⟩
    · intro b' is' ns hm
      rw [hps]
      have : (b', is', ns) ∈ s.imports ∨ (f.imports ≠ [] ∧ (b', is', ns) = (b, f.imports, ts ++ js)) := by
        subst h
        simp only at hm
        by_cases hc : ((ts ++ js).isEmpty || f.imports.isEmpty) = true
        · rw [if_pos hc] at hm; exact .inl hm
        · rw [if_neg hc] at hm
          rcases List.mem_append.1 hm with h | h
          · exact .inl h
          · rw [List.mem_singleton] at h
            refine .inr ⟨?_, h⟩
            intro h0; rw [h0] at hc; simp at hc
      rcases this with h' | ⟨hne, he⟩
      · obtain ⟨h1, ⟨q0, e, hb'⟩, h3⟩ := v.imps b' is' ns h'
        obtain ⟨q', e', _, _, a3, _⟩ := k b' q0 e
        refine ⟨h1, ⟨q', e', by rw [a3, hb']⟩, fun i hi => ?_⟩
        obtain ⟨h4, n, hn, hnb⟩ := h3 i hi
        obtain ⟨n', en, _, _, b3, _⟩ := k i n hn
        exact ⟨h4, n', en, by rw [b3, hnb]⟩
      · cases he
        obtain ⟨q', e', _, _, a3, _⟩ := k b q hq
        refine ⟨hne, ⟨q', e', by rw [a3, hb]⟩, fun i hi => ?_⟩
        obtain ⟨g1, g2⟩ := (ids i).1 hi
        exact ⟨by omega, _, List.getElem?_eq_getElem g2, (split i _ g1 (List.getElem?_eq_getElem g2)).1⟩
    · subst h
      simp only
      split
      · exact v.disj
      · rw [List.pairwise_append]
        refine ⟨v.disj, by simp, ?_⟩
        intro a ha c hc i hia hic
        rw [List.mem_singleton] at hc; subst hc
        obtain ⟨n, hn, _⟩ := ((v.imps a.1 a.2.1 a.2.2 ha).2.2 i hia).2
        have := (List.getElem?_eq_some_iff.1 hn).1
        have := (ids i).1 hic
        omega
    · rw [hps, keeps_items k hL, v.items, List.flatMap_append, keeps_items B.keeps (by omega)]
      congr 1
      rw [adds_drop A, adds_drop B]
      simp [itemsOf, fileItems, Item.isBoundary, Item.isType, List.filterMap_map, Function.comp_def]
    · intro p' f' hm
      rw [hps]
      rcases List.mem_append.1 hm with hm | hm
      · obtain ⟨c, hc, h⟩ := v.placed p' f' hm
        refine ⟨c, keeps_bpath k hc, fun nm kd hk => ?_⟩
        obtain ⟨i, n, h1, h2, h3, h4, h5, h6, h7⟩ := h nm kd hk
        obtain ⟨n', e, a1, a2, a3, a4, _⟩ := k i n h2
        exact ⟨i, n', h1, e, by rw [a1, h3], by rw [a2, h4], by rw [a3, h5], by rw [a4, h6],
          ownOld f' c i (List.getElem?_eq_some_iff.1 h2).1 h7⟩
      · rw [List.mem_singleton] at hm; cases hm
        refine ⟨b, keeps_bpath k hbp, fun nm kd hk => ?_⟩
        unfold fileItems at hk
        rcases List.mem_append.1 hk with hk | hk
        · obtain ⟨x, hx, he⟩ := List.mem_map.1 hk
          cases he
          obtain ⟨j, hj⟩ := List.mem_iff_getElem?.1 hx
          obtain ⟨n, e, a1, a2, a3⟩ := newT j nm hj
          refine ⟨_, n, ?_, e, a1, a2, by rw [a3]; rfl, by rw [a3]; rfl, own _ (by omega) (List.getElem?_eq_some_iff.1 e).1⟩
          omega
        · obtain ⟨x, hx, he⟩ := List.mem_map.1 hk
          cases he
          obtain ⟨j, hj⟩ := List.mem_iff_getElem?.1 hx
          have e := newI j nm hj
          exact ⟨_, _, by omega, e, rfl, rfl, rfl, rfl, own _ (by omega) (List.getElem?_eq_some_iff.1 e).1⟩
    · intro i n hi hn hnb
      rw [hps] at hn ⊢
      by_cases hlt : i < s.ps.length
      · obtain ⟨m, hm⟩ : ∃ m : Node, s.ps[i]? = some m := ⟨_, List.getElem?_eq_getElem hlt⟩
        obtain ⟨n', e, a1, a2, a3, a4, a5, _⟩ := k i m hm
        rw [hn] at e; cases e
        obtain ⟨h1, p', f', c, h2, h3, h4, h5, h6⟩ := v.origin i m hi hm (by rw [← a3, hnb])
        exact ⟨by rw [a5, h1], p', f', c, by simp [h2], keeps_bpath k h3, by rw [a2, h4], by rw [a1, a4]; exact h5, ownOld _ _ _ hlt h6⟩
      · obtain ⟨s1, s2, s3, s4⟩ := split i n (by omega) hn
        exact ⟨s2, p, f, b, by simp, keeps_bpath k hbp, s3, s4, own i (by omega) (List.getElem?_eq_some_iff.1 hn).1⟩
    · intro c x hx
      rw [hps] at hx
      exact v.exOld c x (A.exps c x (B.exps c x hx))

theorem inv_files {ps0 : Parts} (fs : List FileDef) : ∀ {done : List (List String × FileDef)} {s : Acc},
    Inv ps0 done s → ∀ {p : List String} {b : Nat} {q : Node}, BPath s.ps 0 p b → s.ps[b]? = some q →
    q.item.isBoundary = true → addFiles b s fs ≠ .error .panic ∧
    ∀ s', addFiles b s fs = .ok s' → Inv ps0 (done ++ fs.map fun f => (p, f)) s' ∧ Keeps s.ps s'.ps := by
  induction fs with
  | nil =>
    intro done s v p b q _ _ _
    refine ⟨by simp [addFiles], fun s' h => ?_⟩
    simp only [addFiles, Except.ok.injEq] at h
    subst h
    simpa using ⟨v, keeps_refl _⟩
  | cons f fs ih =>
    intro done s v p b q hbp hq hb
    obtain ⟨h1, h2⟩ := inv_file v hbp hq hb f
    simp only [addFiles]
    cases hr : addFileDef b s f with
    | error x => rw [hr] at h1; exact ⟨by simp only [Except.bind]; exact h1, fun s' h => by cases h⟩
    | ok s1 =>
      obtain ⟨v1, k1⟩ := h2 s1 hr
      obtain ⟨q', e', _, _, a3, _⟩ := k1 b q hq
      obtain ⟨g1, g2⟩ := ih v1 (p := p) (keeps_bpath k1 hbp) e' (by rw [a3, hb])
      refine ⟨g1, fun s' h => ?_⟩
      obtain ⟨v2, k2⟩ := g2 s' h
      exact ⟨by simpa using v2, keeps_trans k1 k2⟩

/-- The whole first phase. -/
theorem inv_phase1 {ps0 : Parts} (m : List (List String × List FileDef)) :
    ∀ {done : List (List String × FileDef)} {s : Acc}, Inv ps0 done s → phase1 s m ≠ .error .panic ∧
    ∀ s', phase1 s m = .ok s' → Inv ps0 (done ++ filesOf m) s' ∧ Keeps s.ps s'.ps ∧
      ∀ x ∈ m, ∃ b, BPath s'.ps 0 x.1 b := by
  induction m with
  | nil =>
    intro done s v
    refine ⟨by simp [phase1], fun s' h => ?_⟩
    simp only [phase1, Except.ok.injEq] at h
    subst h
    exact ⟨by simpa [filesOf] using v, keeps_refl _, fun x hx => by cases hx⟩
  | cons x m ih =>
    obtain ⟨p, fs⟩ := x
    intro done s v
    obtain ⟨q0, e0, _, hb0⟩ := v.wf.forest.roots 0 (by decide)
    obtain ⟨h1, h2⟩ := boundaryPath_spec p s.ps 0 q0 v.wf e0 hb0
    simp only [phase1]
    cases hr : boundaryPath s.ps p 0 with
    | error x => rw [hr] at h1; exact ⟨by simp only [Except.bind]; intro e; cases e; exact h1 rfl, fun s' h => by cases h⟩
    | ok y =>
      obtain ⟨qs, b⟩ := y
      obtain ⟨w, k, bp, ⟨r, er, hbr⟩, nw, ex⟩ := h2 qs b hr
      have v1 := inv_grow v w k nw ex
      obtain ⟨g1, g2⟩ := inv_files fs v1 (p := p) bp er hbr
      simp only [Except.bind]
      cases hr2 : addFiles b { s with ps := qs } fs with
      | error x => rw [hr2] at g1; exact ⟨by simp only; exact g1, fun s' h => by cases h⟩
      | ok s2 =>
        obtain ⟨v2, k2⟩ := g2 s2 hr2
        obtain ⟨i1, i2⟩ := ih v2
        refine ⟨i1, fun s' h => ?_⟩
        obtain ⟨v3, k3, hp⟩ := i2 s' h
        refine ⟨by simpa [filesOf] using v3, keeps_trans k (keeps_trans k2 k3), ?_⟩
        intro x hx
        rcases List.mem_cons.1 hx with rfl | hx
        · exact ⟨b, keeps_bpath k3 (keeps_bpath k2 bp)⟩
        · exact hp x hx

end Verif.Part
