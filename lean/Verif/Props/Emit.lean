import Verif.Model.Emit
import Verif.Lemmas.ListAux
import Mathlib.Data.List.Perm.Basic

/-!
# C112: the generated code of a compiled operator is bound to the right places
-/

namespace Funpy.Props
open Emit

/-! ### Specification -/

/-- No printed piece contains a line break, the name of the operator no parenthesis. -/
structure CleanCtx (c : Ctx) : Prop where
  name : '\n' ∉ c.name
  paren : '(' ∉ c.name
  args : '\n' ∉ c.args
  ftype : '\n' ∉ c.ftype
  d0 : '\n' ∉ c.d0
  d1 : '\n' ∉ c.d1

/-- The terms of a block: printed on one line, and at most one differential term of each order. -/
structure CleanBlock (b : Block) : Prop where
  d : ∀ d ∈ b.dops, '\n' ∉ d.coef.code
  i : ∀ o ∈ b.iops, '\n' ∉ o.coef.code ∧ '\n' ∉ o.integrand.code
  orders : (b.dops.map DOp.order).Nodup

/-- The function of the given arguments which returns the given expression. -/
def fn (c : Ctx) (body : Str) : Binding := .func ("(".toList ++ c.args ++ "):".toList) body

/-- What the handles of a built block have to be: at index `k` the code of the differential term of order `k` (nothing where there is
no such term), the info function, and the code of the integral terms in their order. -/
structure IsBlock (c : Ctx) (b : Block) (h : Handles) : Prop where
  term : ∀ d ∈ b.dops, h.coeffs[d.order]? = some (some (fn c (diffBody c d.coef)))
  none : ∀ k, (∀ d ∈ b.dops, d.order ≠ k) → h.coeffs.getD k none = none
  len : h.coeffs.length ≠ 0 ∧ ∀ k, (∀ d ∈ b.dops, d.order ≤ k) → h.coeffs.length ≤ k + 1
  info : h.info = .func "():".toList (infoBody b)
  icoeffs : h.icoeffs = b.iops.map fun o => fn c (intBody c o.coef)
  integrand : h.integrand = b.iops.map fun o => fn c (intBody c o.integrand)

/-! ### Names -/

private lemma dec_inj {a b : ℕ} (h : dec a = dec b) : a = b := by
  have := congrArg (fun s => Nat.ofDigitChars 10 s 0) h
  simpa [dec, Nat.ofDigitChars_ten_toDigits] using this

private lemma dec_digit {a : ℕ} {ch : Char} (h : ch ∈ dec a) : ch.isDigit = true :=
  Nat.isDigit_of_mem_toDigits (by decide) (by decide) h

private lemma dec_ne (a : ℕ) : dec a ≠ [] := Nat.toDigits_ne_nil

private lemma dec_clean (a : ℕ) : '\n' ∉ dec a := fun h => by simpa using dec_digit h

private lemma dec_paren (a : ℕ) : '(' ∉ dec a := fun h => by simpa using dec_digit h

private lemma dName_inj {c : Ctx} {b : Block} {k l : ℕ} (h : dName c b k = dName c b l) : k = l :=
  dec_inj (List.append_cancel_left h)

private lemma icName_inj {c : Ctx} {b : Block} {k l : ℕ} (h : icName c b k = icName c b l) : k = l :=
  dec_inj (List.append_cancel_left h)

private lemma iiName_inj {c : Ctx} {b : Block} {k l : ℕ} (h : iiName c b k = iiName c b l) : k = l :=
  dec_inj (List.append_cancel_left h)

private lemma d_ne_ic {c : Ctx} {b : Block} {k l : ℕ} : dName c b k ≠ icName c b l := by
  intro h
  simp only [dName, icName, List.append_assoc] at h
  have h := List.append_cancel_left (List.append_cancel_left (List.append_cancel_left h))
  have : 'i' ∈ dec k := by rw [h]; simp
  simpa using dec_digit this

private lemma d_ne_ii {c : Ctx} {b : Block} {k l : ℕ} : dName c b k ≠ iiName c b l := by
  intro h
  simp only [dName, iiName, List.append_assoc] at h
  have h := List.append_cancel_left (List.append_cancel_left (List.append_cancel_left h))
  have : 'i' ∈ dec k := by rw [h]; simp
  simpa using dec_digit this

private lemma ic_ne_ii {c : Ctx} {b : Block} {k l : ℕ} : icName c b k ≠ iiName c b l := by
  intro h
  simp only [icName, iiName, List.append_assoc] at h
  have h := List.append_cancel_left (List.append_cancel_left (List.append_cancel_left h))
  simp at h

private lemma info_head {c : Ctx} {b : Block} {r : Str} : infoName c b ≠ c.name ++ (dec b.i ++ r) := by
  intro h
  simp only [infoName, List.append_assoc] at h
  have h := List.append_cancel_left h
  rcases hd : dec b.i with _ | ⟨ch, t⟩
  · exact dec_ne _ hd
  · rw [hd] at h
    simp only [List.cons_append, List.cons.injEq] at h
    have : ch.isDigit = true := dec_digit (a := b.i) (by rw [hd]; simp)
    rw [← h.1] at this
    simp at this

private lemma d_ne_info {c : Ctx} {b : Block} {k : ℕ} : dName c b k ≠ infoName c b := by
  intro h; apply info_head (c := c) (b := b) (r := dec b.j ++ dec k); rw [← h]; simp [dName]

private lemma ic_ne_info {c : Ctx} {b : Block} {k : ℕ} : icName c b k ≠ infoName c b := by
  intro h; apply info_head (c := c) (b := b) (r := dec b.j ++ (['i', 'c'] ++ dec k)); rw [← h]; simp [icName]

private lemma ii_ne_info {c : Ctx} {b : Block} {k : ℕ} : iiName c b k ≠ infoName c b := by
  intro h; apply info_head (c := c) (b := b) (r := dec b.j ++ (['i', 'i'] ++ dec k)); rw [← h]; simp [iiName]

/-! ### Execution -/

private lemma splitLines_append (l r : Str) (h : '\n' ∉ l) : splitLines (l ++ '\n' :: r) = l :: splitLines r := by
  induction l with
  | nil => simp [splitLines]
  | cons a l ih =>
    have ha : a ≠ '\n' := by rintro rfl; simp at h
    rw [List.cons_append, splitLines, if_neg ha, ih (by intro h'; exact h (by simp [h']))]

private lemma exec_comment (l r : Str) (ns : NS) (hl : '\n' ∉ l) (h : l = [] ∨ l.head? = some '#') :
    exec (l ++ '\n' :: r) ns = exec r ns := by
  unfold exec
  rw [splitLines_append l r hl, execLines, if_pos h]

private lemma strip_append (p r : Str) : strip p (p ++ r) = some r := by
  induction p with
  | nil => rfl
  | cons a p ih => simp [strip, ih]

private lemma exec_def (name sig body r : Str) (ns : NS) (hn : '\n' ∉ name) (hp : '(' ∉ name) (hs : '\n' ∉ sig) (hb : '\n' ∉ body) :
    exec ("def ".toList ++ (name ++ ('(' :: sig)) ++ '\n' :: (['\x20', '\x20', '\x20', '\x20'] ++ ("return ".toList ++ body) ++ '\n' :: r)) ns
      = exec r (ns.set name (.func ('(' :: sig) body)) := by
  unfold exec
  rw [splitLines_append _ _ (by simp [hn, hs]), splitLines_append _ _ (by simp [hb])]
  have h1 : "def ".toList = ['d', 'e', 'f', ' '] := rfl
  have h2 : ['\x20', '\x20', '\x20', '\x20'] ++ ("return ".toList ++ body)
      = [' ', ' ', ' ', ' ', 'r', 'e', 't', 'u', 'r', 'n', ' '] ++ body := by simp
  rw [h2, execLines, if_neg (by simp), h1]
  simp only [strip_append, Option.bind_some]
  rw [execLines, if_neg (by simp)]
  simp only [strip_append, Option.bind_some]
  have t1 : List.takeWhile (fun x => decide (x ≠ '(')) (name ++ '(' :: sig) = name := by
    clear h1 h2 hn
    induction name with
    | nil => simp
    | cons a l ih =>
      have ha : a ≠ '(' := by rintro rfl; simp at hp
      simp only [List.cons_append, List.takeWhile_cons, ha, ne_eq, not_false_eq_true, decide_true, if_true]
      rw [ih (by intro h'; exact hp (by simp [h']))]
  have t2 : List.dropWhile (fun x => decide (x ≠ '(')) (name ++ '(' :: sig) = '(' :: sig := by
    clear h1 h2 hn t1
    induction name with
    | nil => simp
    | cons a l ih =>
      have ha : a ≠ '(' := by rintro rfl; simp at hp
      simp only [List.cons_append, List.dropWhile_cons, ha, ne_eq, not_false_eq_true, decide_true, if_true]
      rw [ih (by intro h'; exact hp (by simp [h']))]
  rw [t1, t2]

/-! ### Emission -/

/-- A definition: name and binding. -/
private abbrev Def := Str × Binding

private def applyDefs (ds : List Def) (ns : NS) : NS := ds.foldl (fun ns d => ns.set d.1 d.2) ns

private lemma apply_out (ds : List Def) (ns : NS) (s : Str) (h : ∀ d ∈ ds, d.1 ≠ s) : applyDefs ds ns s = ns s := by
  induction ds generalizing ns with
  | nil => rfl
  | cons d ds ih =>
    show applyDefs ds (ns.set d.1 d.2) s = _
    rw [ih _ (fun d h' => h d (by simp [h']))]
    unfold NS.set
    rw [if_neg (fun h' => h d (by simp) h'.symm)]

private lemma apply_get (ds : List Def) (ns : NS) (s : Str) (b : Binding) (hex : ∃ d ∈ ds, d.1 = s) (hall : ∀ d ∈ ds, d.1 = s → d.2 = b) :
    applyDefs ds ns s = some b := by
  induction ds generalizing ns with
  | nil => simp at hex
  | cons d ds ih =>
    show applyDefs ds (ns.set d.1 d.2) s = _
    by_cases h : ∃ d ∈ ds, d.1 = s
    · exact ih _ h (fun d h' => hall d (by simp [h']))
    · have hd : d.1 = s := by
        obtain ⟨e, he, hes⟩ := hex
        rcases List.mem_cons.mp he with rfl | he
        · exact hes
        · exact absurd ⟨e, he, hes⟩ h
      rw [apply_out _ _ _ (fun e he hs => h ⟨e, he, hs⟩)]
      unfold NS.set
      rw [if_pos hd.symm, hall d (by simp) hd]

/-- The generator is at the outer level with the standard indentation. -/
private structure Top (g : CG) : Prop where
  tab : g.tab = [' ', ' ', ' ', ' ']
  level : g.level = 0

/-- `g'` continues `g` with text that executes as the definitions `ds`. -/
private structure Cont (g g' : CG) (ds : List Def) : Prop where
  top : Top g'
  run : ∃ t, g'.text = g.text ++ t ∧ ∀ r ns, exec (t ++ r) ns = exec r (applyDefs ds ns)

private lemma Cont.trans {g g' g'' : CG} {ds es : List Def} (h : Cont g g' ds) (h' : Cont g' g'' es) : Cont g g'' (ds ++ es) := by
  obtain ⟨t, ht, hr⟩ := h.run
  obtain ⟨t', ht', hr'⟩ := h'.run
  refine ⟨h'.top, t ++ t', by rw [ht', ht, List.append_assoc], fun r ns => ?_⟩
  rw [List.append_assoc, hr, hr']
  simp [applyDefs, List.foldl_append]

private lemma write_comment (g : CG) (hg : Top g) (s : Str) (hs : '\n' ∉ s) (h : s = [] ∨ s.head? = some '#') : Cont g (g.write s) [] := by
  refine ⟨?_, s ++ ['\n'], ?_, fun r ns => ?_⟩
  · unfold CG.write; split_ifs <;> exact ⟨hg.tab, hg.level⟩
  · unfold CG.write
    split_ifs with h0
    · subst h0; simp [CG.text]
    · simp [CG.text, hg.level]
  · rw [List.append_assoc]
    exact exec_comment s r ns hs h

private lemma write_body (g : CG) (hg : Top g) (name sig body : Str) (hn : '\n' ∉ name) (hp : '(' ∉ name) (hs : '\n' ∉ sig)
    (hb : '\n' ∉ body) :
    ∃ g', ((((g.write ("def ".toList ++ (name ++ ('(' :: sig)))).indent).write ("return ".toList ++ body)).dedent) = some g' ∧
      Cont g g' [(name, .func ('(' :: sig) body)] := by
  have e1 : ¬ "def ".toList ++ (name ++ ('(' :: sig)) = [] := by simp
  have e2 : ¬ "return ".toList ++ body = [] := by simp
  refine ⟨⟨g.code ++ ["def ".toList ++ (name ++ ('(' :: sig)) ++ ['\n'], [' ', ' ', ' ', ' '] ++ ("return ".toList ++ body) ++ ['\n']],
    [' ', ' ', ' ', ' '], 0⟩, ?_, ⟨rfl, rfl⟩, ?_⟩
  · simp only [CG.write, if_neg e1, if_neg e2, CG.indent, CG.dedent, hg.level, hg.tab]
    simp
  · refine ⟨"def ".toList ++ (name ++ ('(' :: sig)) ++ '\n' :: (['\x20', '\x20', '\x20', '\x20'] ++ ("return ".toList ++ body) ++ ['\n']),
      by simp [CG.text], fun r ns => ?_⟩
    have := exec_def name sig body r ns hn hp hs hb
    simp only [List.append_assoc, List.cons_append, List.nil_append] at this ⊢
    exact this

private lemma writeDef_cont (g : CG) (hg : Top g) (name args body : Str) (hn : '\n' ∉ name) (hp : '(' ∉ name) (hs : '\n' ∉ args)
    (hb : '\n' ∉ body) :
    ∃ g', writeDef g name args body = some g' ∧ Cont g g' [(name, .func ("(".toList ++ args ++ "):".toList) body)] := by
  have h0 := write_comment g hg [] (by simp) (Or.inl rfl)
  obtain ⟨g', h1, h2⟩ := write_body (g.write []) h0.top name (args ++ "):".toList) body hn hp (by simp [hs]) hb
  refine ⟨g', ?_, ?_⟩
  · rw [← h1]; simp [writeDef]
  · have := h0.trans h2
    simpa using this

private lemma foldlM_cont {X : Type} (f : CG → X → Option CG) (ds : X → List Def) (xs : List X)
    (h : ∀ g, Top g → ∀ x ∈ xs, ∃ g', f g x = some g' ∧ Cont g g' (ds x)) (g : CG) (hg : Top g) :
    ∃ g', xs.foldlM f g = some g' ∧ Cont g g' (xs.flatMap ds) := by
  induction xs generalizing g with
  | nil => exact ⟨g, rfl, hg, [], by simp, fun r ns => rfl⟩
  | cons x xs ih =>
    obtain ⟨g1, h1, c1⟩ := h g hg x (by simp)
    obtain ⟨g2, h2, c2⟩ := ih (fun g hg y hy => h g hg y (by simp [hy])) g1 c1.top
    refine ⟨g2, ?_, ?_⟩
    · rw [List.foldlM_cons, h1]; exact h2
    · rw [List.flatMap_cons]; exact c1.trans c2

private lemma napp {a b : Str} (h : '\n' ∉ a) (h' : '\n' ∉ b) : '\n' ∉ a ++ b := fun hm => (List.mem_append.mp hm).elim h h'

private lemma onesArgs_clean {c : Ctx} (hc : CleanCtx c) : '\n' ∉ c.onesArgs :=
  napp (napp (napp (napp (napp (napp (by decide) hc.d0) (by decide)) hc.d1) (by decide)) hc.ftype) (by decide)

private lemma resBody_clean {c : Ctx} (hc : CleanCtx c) (e : Str) (he : '\n' ∉ e) : '\n' ∉ resBody c e :=
  napp (napp (napp (napp (napp (napp (napp (napp (by decide) he) (by decide)) hc.ftype) (by decide)) hc.d0) (by decide)) hc.d1) (by decide)

private lemma diffBody_clean {c : Ctx} (hc : CleanCtx c) (e : Coef) (he : '\n' ∉ e.code) : '\n' ∉ diffBody c e := by
  unfold diffBody
  split_ifs
  · exact napp (by decide) (onesArgs_clean hc)
  · exact napp (napp (napp (by decide) he) (by decide)) (onesArgs_clean hc)
  · exact napp (napp (napp (napp (by decide) he) (by decide)) hc.ftype) (by decide)

private lemma intBody_clean {c : Ctx} (hc : CleanCtx c) (e : Coef) (he : '\n' ∉ e.code) : '\n' ∉ intBody c e := by
  unfold intBody
  split_ifs
  · exact napp (by decide) (onesArgs_clean hc)
  · exact napp (napp he (by decide)) (onesArgs_clean hc)
  · exact he

private lemma join_clean : ∀ l : List Str, (∀ s ∈ l, '\n' ∉ s) → '\n' ∉ join l
  | [], _ => by simp [join]
  | [a], h => by simpa [join] using h
  | a :: b :: l, h => by
    have := join_clean (b :: l) (fun s hs => h s (by simp [List.mem_cons.mp hs]))
    rw [join]
    simp [h a (by simp), this]

private lemma infoBody_clean (b : Block) : '\n' ∉ infoBody b := by
  have := join_clean (b.posInfo.map boolStr) (by
    intro s hs
    obtain ⟨v, _, rfl⟩ := List.mem_map.mp hs
    cases v <;> decide)
  simp [infoBody, this]

private def blockDefs (c : Ctx) (b : Block) : List Def :=
  (b.sorted.flatMap fun d => [(dName c b d.order, fn c (diffBody c d.coef))]) ++
  ((b.iops.zipIdx.flatMap fun o => [(icName c b o.2, fn c (intBody c o.1.coef)), (iiName c b o.2, fn c (intBody c o.1.integrand))]) ++
  [(infoName c b, .func "():".toList (infoBody b))])

private lemma emit_cont {c : Ctx} (hc : CleanCtx c) {b : Block} (hb : CleanBlock b) :
    ∃ code, b.emit c = some code ∧ ∀ ns, exec code ns = some (applyDefs (blockDefs c b) ns) := by
  have t0 : Top CG.start := ⟨rfl, rfl⟩
  have nameC : ∀ r : Str, '\n' ∉ r → '\n' ∉ c.name ++ dec b.i ++ dec b.j ++ r := by
    intro r hr; simp [hc.name, dec_clean, hr]
  have nameP : ∀ r : Str, '(' ∉ r → '(' ∉ c.name ++ dec b.i ++ dec b.j ++ r := by
    intro r hr; simp [hc.paren, dec_paren, hr]
  have h1 := write_comment CG.start t0 (List.replicate 45 '#') (by decide) (Or.inr rfl)
  have h2 := write_comment _ h1.top ("# Derivative block ".toList ++ c.name ++ "[".toList ++ dec b.i ++ ", ".toList ++ dec b.j ++ "].".toList)
    (by simp [hc.name, dec_clean]) (Or.inr (by simp))
  have h3 := write_comment _ h2.top (List.replicate 45 '#') (by decide) (Or.inr rfl)
  obtain ⟨g4, e4, h4⟩ := foldlM_cont (emitD c b) (fun d => [(dName c b d.order, fn c (diffBody c d.coef))]) b.sorted (by
    intro g hg d hd
    have hd' : d ∈ b.dops := (List.mergeSort_perm _ _).mem_iff.mp hd
    exact writeDef_cont g hg _ _ _ (nameC _ (dec_clean _)) (nameP _ (dec_paren _)) hc.args (diffBody_clean hc _ (hb.d d hd'))) _ h3.top
  obtain ⟨g5, e5, h5⟩ := foldlM_cont (emitI c b) (fun o => [(icName c b o.2, fn c (intBody c o.1.coef)),
      (iiName c b o.2, fn c (intBody c o.1.integrand))]) b.iops.zipIdx (by
    intro g hg o ho
    have ho' : o.1 ∈ b.iops := List.fst_mem_of_mem_zipIdx ho
    obtain ⟨ga, ea, ha⟩ := writeDef_cont g hg (icName c b o.2) c.args (intBody c o.1.coef)
      (by have := nameC (['i', 'c'] ++ dec o.2) (by simp [dec_clean]); simpa [icName] using this)
      (by have := nameP (['i', 'c'] ++ dec o.2) (by simp [dec_paren]); simpa [icName] using this)
      hc.args (intBody_clean hc _ (hb.i _ ho').1)
    obtain ⟨gb, eb, hb'⟩ := writeDef_cont ga ha.top (iiName c b o.2) c.args (intBody c o.1.integrand)
      (by have := nameC (['i', 'i'] ++ dec o.2) (by simp [dec_clean]); simpa [iiName] using this)
      (by have := nameP (['i', 'i'] ++ dec o.2) (by simp [dec_paren]); simpa [iiName] using this)
      hc.args (intBody_clean hc _ (hb.i _ ho').2)
    refine ⟨gb, ?_, ha.trans hb'⟩
    unfold emitI
    rw [ea]; exact eb) g4 h4.top
  have h6 := write_comment g5 h5.top [] (by simp) (Or.inl rfl)
  have h7 := write_comment _ h6.top "# Return sorted by derivative term order, followed by the integral terms.".toList (by decide) (Or.inr rfl)
  obtain ⟨g8, e8, h8⟩ := write_body _ h7.top (infoName c b) "):".toList (infoBody b)
    (by simp [infoName, hc.name, dec_clean]) (by simp [infoName, hc.paren, dec_paren]) (by decide) (infoBody_clean b)
  have hinfo : emitInfo c b g5 = some g8 := by
    rw [← e8]; simp [emitInfo]
  have hall := h1.trans (h2.trans (h3.trans (h4.trans (h5.trans (h6.trans (h7.trans h8))))))
  obtain ⟨t, ht, hr⟩ := hall.run
  refine ⟨g8.text, ?_, fun ns => ?_⟩
  · unfold Block.emit
    simp only [e4, e5, hinfo, Option.bind_eq_bind, Option.bind_some]
    rfl
  · have := hr [] ns
    rw [List.append_nil] at this
    rw [ht]
    show exec t ns = _
    rw [this]
    show some _ = some _
    simp [blockDefs]

/-! ### Lookup -/

private lemma mem_sorted {b : Block} {d : DOp} : d ∈ b.sorted ↔ d ∈ b.dops := (List.mergeSort_perm _ _).mem_iff

private lemma order_inj {b : Block} (hb : CleanBlock b) {d e : DOp} (hd : d ∈ b.dops) (he : e ∈ b.dops) (h : d.order = e.order) : d = e :=
  List.inj_on_of_nodup_map hb.orders hd he h

private lemma mem_blockDefs {c : Ctx} {b : Block} {s : Str} {v : Binding} :
    (s, v) ∈ blockDefs c b ↔ (∃ d ∈ b.dops, s = dName c b d.order ∧ v = fn c (diffBody c d.coef)) ∨
      (∃ k, ∃ h : k < b.iops.length, s = icName c b k ∧ v = fn c (intBody c b.iops[k].coef)) ∨
      (∃ k, ∃ h : k < b.iops.length, s = iiName c b k ∧ v = fn c (intBody c b.iops[k].integrand)) ∨
      (s = infoName c b ∧ v = .func "():".toList (infoBody b)) := by
  unfold blockDefs
  simp only [List.mem_append, List.mem_flatMap, List.mem_singleton, List.mem_cons, Prod.mk.injEq, List.not_mem_nil, or_false, mem_sorted]
  constructor
  · rintro (⟨d, hd, h⟩ | ⟨⟨o, k⟩, ho, h⟩ | h)
    · exact Or.inl ⟨d, hd, h⟩
    · rw [List.mem_zipIdx_iff_getElem?] at ho
      simp only at ho h
      obtain ⟨hk, rfl⟩ := List.getElem?_eq_some_iff.mp ho
      rcases h with h | h
      · exact Or.inr (Or.inl ⟨k, hk, h⟩)
      · exact Or.inr (Or.inr (Or.inl ⟨k, hk, h⟩))
    · exact Or.inr (Or.inr (Or.inr h))
  · rintro (⟨d, hd, h⟩ | ⟨k, hk, h⟩ | ⟨k, hk, h⟩ | h)
    · exact Or.inl ⟨d, hd, h⟩
    · exact Or.inr (Or.inl ⟨(b.iops[k], k), by rw [List.mem_zipIdx_iff_getElem?]; simp [hk], Or.inl h⟩)
    · exact Or.inr (Or.inl ⟨(b.iops[k], k), by rw [List.mem_zipIdx_iff_getElem?]; simp [hk], Or.inr h⟩)
    · exact Or.inr (Or.inr h)

private lemma look {c : Ctx} {b : Block} {s : Str} {v : Binding} (ns : NS) (h : (s, v) ∈ blockDefs c b)
    (hu : ∀ w, (s, w) ∈ blockDefs c b → w = v) : applyDefs (blockDefs c b) ns s = some v := by
  apply apply_get _ _ _ _ ⟨_, h, rfl⟩
  rintro ⟨s', w⟩ hw rfl
  exact hu w hw

private lemma look_d {c : Ctx} {b : Block} (hb : CleanBlock b) (ns : NS) (d : DOp) (hd : d ∈ b.dops) :
    applyDefs (blockDefs c b) ns (dName c b d.order) = some (fn c (diffBody c d.coef)) := by
  apply look ns (mem_blockDefs.mpr (Or.inl ⟨d, hd, rfl, rfl⟩))
  intro w hw
  rcases mem_blockDefs.mp hw with ⟨e, he, h, rfl⟩ | ⟨k, hk, h, _⟩ | ⟨k, hk, h, _⟩ | ⟨h, _⟩
  · rw [order_inj hb hd he (dName_inj h)]
  · exact absurd h d_ne_ic
  · exact absurd h d_ne_ii
  · exact absurd h d_ne_info

private lemma look_ic {c : Ctx} {b : Block} (ns : NS) (k : ℕ) (hk : k < b.iops.length) :
    applyDefs (blockDefs c b) ns (icName c b k) = some (fn c (intBody c b.iops[k].coef)) := by
  apply look ns (mem_blockDefs.mpr (Or.inr (Or.inl ⟨k, hk, rfl, rfl⟩)))
  intro w hw
  rcases mem_blockDefs.mp hw with ⟨e, he, h, rfl⟩ | ⟨l, hl, h, rfl⟩ | ⟨l, hl, h, _⟩ | ⟨h, _⟩
  · exact absurd h.symm d_ne_ic
  · have := icName_inj h; subst this; rfl
  · exact absurd h ic_ne_ii
  · exact absurd h ic_ne_info

private lemma look_ii {c : Ctx} {b : Block} (ns : NS) (k : ℕ) (hk : k < b.iops.length) :
    applyDefs (blockDefs c b) ns (iiName c b k) = some (fn c (intBody c b.iops[k].integrand)) := by
  apply look ns (mem_blockDefs.mpr (Or.inr (Or.inr (Or.inl ⟨k, hk, rfl, rfl⟩))))
  intro w hw
  rcases mem_blockDefs.mp hw with ⟨e, he, h, rfl⟩ | ⟨l, hl, h, _⟩ | ⟨l, hl, h, rfl⟩ | ⟨h, _⟩
  · exact absurd h.symm d_ne_ii
  · exact absurd h.symm ic_ne_ii
  · have := iiName_inj h; subst this; rfl
  · exact absurd h ii_ne_info

private lemma look_info {c : Ctx} {b : Block} (ns : NS) :
    applyDefs (blockDefs c b) ns (infoName c b) = some (.func "():".toList (infoBody b)) := by
  apply look ns (mem_blockDefs.mpr (Or.inr (Or.inr (Or.inr ⟨rfl, rfl⟩))))
  intro w hw
  rcases mem_blockDefs.mp hw with ⟨e, he, h, rfl⟩ | ⟨l, hl, h, _⟩ | ⟨l, hl, h, _⟩ | ⟨_, rfl⟩
  · exact absurd h.symm d_ne_info
  · exact absurd h.symm ic_ne_info
  · exact absurd h.symm ii_ne_info
  · rfl

private lemma mapM_range (n : ℕ) (f : ℕ → Option Binding) (l : List Binding) (hl : l.length = n)
    (h : ∀ k (hk : k < n), f k = some (l[k]'(by omega))) : (List.range n).mapM f = some l := by
  have : (List.range n).mapM f = some ((List.range n).map fun k => l.getD k (.obj [])) := by
    have gen : ∀ xs : List ℕ, (∀ x ∈ xs, x < n) → xs.mapM f = some (xs.map fun k => l.getD k (.obj [])) := by
      intro xs
      induction xs with
      | nil => intro _; rfl
      | cons x xs ih =>
        intro hx
        rw [List.mapM_cons, h x (hx x (by simp)), ih (fun y hy => hx y (by simp [hy]))]
        simp [hl, hx x (by simp)]
    exact gen _ (fun x hx => List.mem_range.mp hx)
  rw [this]
  congr 1
  apply List.ext_getElem
  · simp [hl]
  · intro k h1 h2; simp [h2]

private lemma foldlM_set (F : DOp → Binding) (look : DOp → Option Binding) (l : List DOp) (hl : ∀ d ∈ l, look d = some (F d))
    (init : List (Option Binding)) :
    l.foldlM (fun (a : List (Option Binding)) d => (look d).map fun h => a.set d.order (some h)) init
      = some (l.foldl (fun a d => a.set d.order (some (F d))) init) := by
  induction l generalizing init with
  | nil => rfl
  | cons d l ih =>
    rw [List.foldlM_cons, hl d (by simp)]
    exact ih (fun d h => hl d (by simp [h])) _

private lemma foldl_set_len (F : DOp → Binding) (l : List DOp) (init : List (Option Binding)) :
    (l.foldl (fun a d => a.set d.order (some (F d))) init).length = init.length := by
  induction l generalizing init with
  | nil => rfl
  | cons d l ih => rw [List.foldl_cons, ih, List.length_set]

private lemma foldl_set_out (F : DOp → Binding) (l : List DOp) (init : List (Option Binding)) (k : ℕ) (h : ∀ d ∈ l, d.order ≠ k) :
    (l.foldl (fun a d => a.set d.order (some (F d))) init)[k]? = init[k]? := by
  induction l generalizing init with
  | nil => rfl
  | cons d l ih =>
    rw [List.foldl_cons, ih _ (fun d h' => h d (by simp [h'])), List.getElem?_set_ne (h d (by simp))]

private lemma foldl_set_in (F : DOp → Binding) (l : List DOp) (init : List (Option Binding)) (d : DOp) (hd : d ∈ l)
    (hinj : ∀ e ∈ l, e.order = d.order → e = d) (hlt : d.order < init.length) :
    (l.foldl (fun a d => a.set d.order (some (F d))) init)[d.order]? = some (some (F d)) := by
  induction l generalizing init with
  | nil => simp at hd
  | cons e l ih =>
    rw [List.foldl_cons]
    by_cases h : d ∈ l
    · exact ih _ h (fun e he => hinj e (by simp [he])) (by simpa using hlt)
    · have he : d = e := by simpa [h] using hd
      subst he
      rw [foldl_set_out _ _ _ _ (fun e' he' hq => h (by rw [← hinj e' (by simp [he']) hq]; exact he'))]
      simp [hlt]

private lemma diffOrder_spec (b : Block) : (∀ d ∈ b.dops, d.order ≤ b.diffOrder) ∧ ∀ k, (∀ d ∈ b.dops, d.order ≤ k) → b.diffOrder ≤ k := by
  have gen : ∀ (l : List DOp) (m : ℕ), m ≤ l.foldl (fun m d => max d.order m) m ∧ (∀ d ∈ l, d.order ≤ l.foldl (fun m d => max d.order m) m) ∧
      ∀ k, m ≤ k → (∀ d ∈ l, d.order ≤ k) → l.foldl (fun m d => max d.order m) m ≤ k := by
    intro l
    induction l with
    | nil => intro m; simp
    | cons d l ih =>
      intro m
      obtain ⟨h1, h2, h3⟩ := ih (max d.order m)
      refine ⟨le_trans (le_max_right _ _) h1, ?_, ?_⟩
      · intro e he
        rcases List.mem_cons.mp he with rfl | he
        · exact le_trans (le_max_left _ _) h1
        · exact h2 e he
      · intro k hk h
        exact h3 k (max_le (h d (by simp)) hk) (fun e he => h e (by simp [he]))
  obtain ⟨_, h2, h3⟩ := gen b.sorted 0
  exact ⟨fun d hd => h2 d (mem_sorted.mpr hd), fun k h => h3 k (Nat.zero_le _) (fun d hd => h d (mem_sorted.mp hd))⟩

private lemma build_block {c : Ctx} {b : Block} (hb : CleanBlock b) (ns : NS) :
    ∃ h, buildBlock c b (applyDefs (blockDefs c b) ns) = some h ∧ IsBlock c b h := by
  set ns' := applyDefs (blockDefs c b) ns with hns
  obtain ⟨o1, o2⟩ := diffOrder_spec b
  have hco := foldlM_set (fun d => fn c (diffBody c d.coef)) (fun d => ns' (dName c b d.order)) b.sorted
    (fun d hd => look_d hb ns d (mem_sorted.mp hd)) (List.replicate (b.diffOrder + 1) none)
  have hic := mapM_range b.iops.length (fun k => ns' (icName c b k)) (b.iops.map fun o => fn c (intBody c o.coef)) (by simp)
    (fun k hk => by rw [hns, look_ic ns k hk]; simp)
  have hii := mapM_range b.iops.length (fun k => ns' (iiName c b k)) (b.iops.map fun o => fn c (intBody c o.integrand)) (by simp)
    (fun k hk => by rw [hns, look_ii ns k hk]; simp)
  refine ⟨⟨b.sorted.foldl (fun a d => a.set d.order (some (fn c (diffBody c d.coef)))) (List.replicate (b.diffOrder + 1) none),
    .func "():".toList (infoBody b), b.iops.map fun o => fn c (intBody c o.coef), b.iops.map fun o => fn c (intBody c o.integrand)⟩, ?_, ?_⟩
  · unfold buildBlock
    rw [hco, hic, hii, hns, look_info]
    rfl
  · refine ⟨?_, ?_, ?_, rfl, rfl, rfl⟩
    · intro d hd
      exact foldl_set_in (fun d => fn c (diffBody c d.coef)) b.sorted _ d (mem_sorted.mpr hd)
        (fun e he h => order_inj hb (mem_sorted.mp he) hd h) (by simpa using Nat.lt_succ_of_le (o1 d hd))
    · intro k hk
      rw [List.getD_eq_getElem?_getD]
      rw [foldl_set_out (fun d => fn c (diffBody c d.coef)) b.sorted _ k (fun d hd => hk d (mem_sorted.mp hd))]
      rw [List.getElem?_replicate]
      split_ifs <;> rfl
    · rw [foldl_set_len (fun d => fn c (diffBody c d.coef)), List.length_replicate]
      exact ⟨by omega, fun k h => by have := o2 k h; omega⟩

private lemma block_out {c : Ctx} {b : Block} (ns : NS) (s : Str) (h : ¬ c.name <+: s) : applyDefs (blockDefs c b) ns s = ns s := by
  apply apply_out
  rintro ⟨s', v⟩ hv rfl
  apply h
  rcases mem_blockDefs.mp hv with ⟨d, _, h, _⟩ | ⟨k, _, h, _⟩ | ⟨k, _, h, _⟩ | ⟨h, _⟩ <;> rw [h] <;>
    simp only [dName, icName, iiName, infoName, List.append_assoc] <;> exact List.prefix_append _ _

/-- C112: building a linear operator always succeeds, and the handles of every block call exactly the code of the coefficients of that
block: index `k` the coefficient of the derivative of order `k`, the `k`-th integral coefficient and integrand those of the `k`-th
integral term, whatever the namespace contained before and however many other blocks share it. Names which do not start with the
name of the operator keep their value. -/
theorem C112_operator (c : Ctx) (hc : CleanCtx c) (bs : List Block) (hb : ∀ b ∈ bs, CleanBlock b) (ns : NS) :
    ∃ hs ns', buildBlocks c bs ns = some (hs, ns') ∧ List.Forall₂ (IsBlock c) bs hs ∧ ∀ s, ¬ c.name <+: s → ns' s = ns s := by
  induction bs generalizing ns with
  | nil => exact ⟨[], ns, rfl, .nil, fun _ _ => rfl⟩
  | cons b bs ih =>
    obtain ⟨code, e1, e2⟩ := emit_cont hc (hb b (by simp))
    obtain ⟨h, e3, hh⟩ := build_block (c := c) (hb b (by simp)) ns
    obtain ⟨hs, ns', e4, hf, ho⟩ := ih (fun b h => hb b (by simp [h])) (applyDefs (blockDefs c b) ns)
    refine ⟨h :: hs, ns', ?_, .cons hh hf, fun s hs => ?_⟩
    · rw [buildBlocks, e1]
      simp only [Option.bind_eq_bind, Option.bind_some, e2, e3, e4]
      rfl
    · rw [ho s hs, block_out ns s hs]

/-- C112: if a block has exactly one term for each order up to `n` (in whatever order they were appended), entry `k ≤ n` of the info
list says whether the coefficient of order `k` is not recognised as zero, and the last entry whether some integral term has neither
factor recognised as zero. -/
theorem C112_info (b : Block) (n : ℕ) (h : (b.dops.map DOp.order).Perm (List.range (n + 1))) :
    b.posInfo.length = n + 2 ∧ (∀ d ∈ b.dops, b.posInfo[d.order]? = some (!d.coef.zero)) ∧
    (b.posInfo[n + 1]? = some true ↔ ∃ o ∈ b.iops, o.coef.zero = false ∧ o.integrand.zero = false) := by
  have hp : (b.sorted.map DOp.order).Perm (List.range (n + 1)) := ((List.mergeSort_perm _ _).map _).trans h
  have hs : (b.sorted.map DOp.order).Pairwise (· ≤ ·) := by
    rw [List.pairwise_map]
    have := List.pairwise_mergeSort (le := fun x y : DOp => decide (x.order ≤ y.order)) (by intro a b c; simp; omega)
      (by intro a b; simp; omega) b.dops
    exact this.imp (by intro a b; simp)
  have he : b.sorted.map DOp.order = List.range (n + 1) :=
    hp.eq_of_pairwise (fun a b _ _ h1 h2 => le_antisymm h1 h2) hs (List.pairwise_le_range)
  have hlen : b.sorted.length = n + 1 := by
    have := congrArg List.length he; simpa using this
  refine ⟨by simp [Block.posInfo, hlen], fun d hd => ?_, ?_⟩
  · obtain ⟨k, hk, hkd⟩ := List.mem_iff_getElem.mp (mem_sorted.mpr hd)
    have : d.order = k := by
      have h1 : (b.sorted.map DOp.order)[k]? = some d.order := by simp [hk, hkd]
      rw [he] at h1
      rw [List.getElem?_range (by omega)] at h1
      exact (Option.some.inj h1).symm
    rw [this]
    unfold Block.posInfo
    rw [List.getElem?_append_left (by simpa using hk)]
    simp [hk, hkd]
  · unfold Block.posInfo
    rw [List.getElem?_append_right (by simp [hlen])]
    simp [hlen]

/-! ### Residuals and whole systems -/

private lemma emitRes_cont {c : Ctx} (hc : CleanCtx c) (g : CG) (hg : Top g) (e : Str × ℕ) (he : '\n' ∉ e.1) :
    ∃ g', emitRes c g e = some g' ∧ Cont g g' [(resName c e.2, .func ("(".toList ++ c.args ++ ", *args):".toList) (resBody c e.1))] := by
  obtain ⟨g1, e1, h1⟩ := write_body g hg (resName c e.2) (c.args ++ ", *args):".toList) (resBody c e.1)
    (by simp [resName, hc.name, dec_clean]) (by simp [resName, hc.paren, dec_paren]) (napp hc.args (by decide))
    (resBody_clean hc _ he)
  have h2 := write_comment g1 h1.top [] (by simp) (Or.inl rfl)
  refine ⟨_, ?_, by simpa using h1.trans h2⟩
  have : emitRes c g e = (((((g.write ("def ".toList ++ (resName c e.2 ++ ('(' :: (c.args ++ ", *args):".toList))))).indent).write
    ("return ".toList ++ resBody c e.1)).dedent)).map fun g => g.write [] := by simp [emitRes]
  rw [this, e1]; rfl

/-- C112: building a residual always succeeds; its `k`-th function returns the code of equation `k`, and names which do not start with
the name of the residual keep their value. -/
theorem C112_residual (c : Ctx) (hc : CleanCtx c) (eqns : List Str) (he : ∀ e ∈ eqns, '\n' ∉ e) (ns : NS) :
    ∃ ns', buildRes c eqns ns = some (eqns.map fun e => .func ("(".toList ++ c.args ++ ", *args):".toList) (resBody c e), ns') ∧
      (∀ k (hk : k < eqns.length), ns' (c.name ++ dec k) = some (.func ("(".toList ++ c.args ++ ", *args):".toList) (resBody c eqns[k]))) ∧
      ∀ s, ¬ c.name <+: s → ns' s = ns s := by
  have t0 : Top CG.start := ⟨rfl, rfl⟩
  have h1 := write_comment CG.start t0 (List.replicate 35 '#') (by decide) (Or.inr rfl)
  have h2 := write_comment _ h1.top ("# Function block ".toList ++ c.name ++ ".".toList) (by simp [hc.name]) (Or.inr (by simp))
  have h3 := write_comment _ h2.top (List.replicate 35 '#') (by decide) (Or.inr rfl)
  obtain ⟨g4, e4, h4⟩ := foldlM_cont (emitRes c)
    (fun e => [(resName c e.2, Binding.func ("(".toList ++ c.args ++ ", *args):".toList) (resBody c e.1))]) eqns.zipIdx
    (fun g hg e h => emitRes_cont hc g hg e (he _ (List.fst_mem_of_mem_zipIdx h))) _ h3.top
  obtain ⟨t, ht, hr⟩ := (h1.trans (h2.trans (h3.trans h4))).run
  set ds := eqns.zipIdx.flatMap fun e => [(resName c e.2, Binding.func ("(".toList ++ c.args ++ ", *args):".toList) (resBody c e.1))] with hds
  have hmem : ∀ s v, (s, v) ∈ ds ↔ ∃ k, ∃ h : k < eqns.length, s = resName c k ∧
      v = Binding.func ("(".toList ++ c.args ++ ", *args):".toList) (resBody c eqns[k]) := by
    intro s v
    rw [hds, List.mem_flatMap]
    constructor
    · rintro ⟨⟨e, k⟩, hk, h⟩
      rw [List.mem_zipIdx_iff_getElem?] at hk
      simp only at hk
      obtain ⟨hk', rfl⟩ := List.getElem?_eq_some_iff.mp hk
      simp only [List.mem_singleton, Prod.mk.injEq] at h
      exact ⟨k, hk', h⟩
    · rintro ⟨k, hk, h⟩
      exact ⟨(eqns[k], k), by rw [List.mem_zipIdx_iff_getElem?]; simp [hk], by simp [h]⟩
  have hget : ∀ k (hk : k < eqns.length), applyDefs ds ns (resName c k)
      = some (.func ("(".toList ++ c.args ++ ", *args):".toList) (resBody c eqns[k])) := by
    intro k hk
    apply apply_get _ _ _ _ ⟨_, (hmem _ _).mpr ⟨k, hk, rfl, rfl⟩, rfl⟩
    rintro ⟨s, w⟩ hw hs
    obtain ⟨l, hl, h5, h6⟩ := (hmem _ _).mp hw
    have hs : s = resName c k := hs
    rw [h5] at hs
    have hlk : l = k := dec_inj (List.append_cancel_left hs)
    subst hlk
    exact h6
  refine ⟨applyDefs ds ns, ?_, fun k hk => hget k hk, fun s hs => ?_⟩
  · have hemit : emitVec c eqns = some g4.text := by
      unfold emitVec
      simp only [e4, Option.bind_eq_bind, Option.bind_some]; rfl
    have hex : exec g4.text ns = some (applyDefs ds ns) := by
      have := hr [] ns
      rw [List.append_nil] at this
      rw [ht]
      show exec t ns = _
      rw [this]
      show some _ = some _
      simp
    have hm := mapM_range eqns.length (fun k => applyDefs ds ns (resName c k))
      (eqns.map fun e => .func ("(".toList ++ c.args ++ ", *args):".toList) (resBody c e)) (by simp)
      (fun k hk => by rw [hget k hk]; simp)
    unfold buildRes
    rw [hemit]
    simp only [Option.bind_eq_bind, Option.bind_some, hex, hm]
    rfl
  · apply apply_out
    rintro ⟨s', v⟩ hv rfl
    obtain ⟨k, _, h, _⟩ := (hmem _ _).mp hv
    exact hs (by rw [h]; exact List.prefix_append _ _)

private lemma clean_name {c : Ctx} (hc : CleanCtx c) (n : Str) (h1 : '\n' ∉ n) (h2 : '(' ∉ n) : CleanCtx { c with name := n } :=
  ⟨h1, h2, hc.args, hc.ftype, hc.d0, hc.d1⟩

/-- C112 (partial: the names of user-defined functions must avoid the generated ones, see `C112_names_fails`): building a whole system binds
every block and every equation to its own code, and every global whose name starts neither with `eqn` nor with `f` nor with `c` keeps
its value. -/
theorem C112_system_partial (c : Ctx) (hc : CleanCtx c) (lin : List Block) (eqns : List Str) (cl : List Block) (ce : List Str)
    (hl : ∀ b ∈ lin, CleanBlock b) (he : ∀ e ∈ eqns, '\n' ∉ e) (hcl : ∀ b ∈ cl, CleanBlock b) (hce : ∀ e ∈ ce, '\n' ∉ e) (ns : NS) :
    ∃ h h' ns', buildSys c lin eqns (some (cl, ce)) ns =
        some ((h, eqns.map fun e => .func ("(".toList ++ c.args ++ ", *args):".toList) (resBody c e)),
          some (h', ce.map fun e => .func ("(".toList ++ c.args ++ ", *args):".toList) (resBody c e)), ns') ∧
      List.Forall₂ (IsBlock { c with name := "eqn".toList }) lin h ∧ List.Forall₂ (IsBlock { c with name := "cts".toList }) cl h' ∧
      ∀ s : Str, ¬ "eqn".toList <+: s → ¬ "f".toList <+: s → ¬ "c".toList <+: s → ns' s = ns s := by
  obtain ⟨h, n1, a1, a2, a3⟩ := C112_operator _ (clean_name hc "eqn".toList (by decide) (by decide)) lin hl ns
  obtain ⟨n2, b1, _, b3⟩ := C112_residual _ (clean_name hc "f".toList (by decide) (by decide)) eqns he n1
  obtain ⟨h', n3, c1, c2, c3⟩ := C112_operator _ (clean_name hc "cts".toList (by decide) (by decide)) cl hcl n2
  obtain ⟨n4, d1, _, d3⟩ := C112_residual _ (clean_name hc "c".toList (by decide) (by decide)) ce hce n3
  refine ⟨h, h', n4, ?_, a2, c2, fun s s1 s2 s3 => ?_⟩
  · unfold buildSys
    simp only [a1, Option.bind_eq_bind, Option.bind_some, b1, c1, d1]
    rfl
  · rw [d3 s s3, c3 s (fun hp => s3 ((by decide : "c".toList <+: "cts".toList).trans hp)), b3 s s2, a3 s s1]

/-- C112, failure: a user-defined function with the name `f0` (or `c0`) does not survive: building the residual rebinds the name to
the function of the first equation, which all the generated code then finds under that name. -/
theorem C112_names_fails (c : Ctx) (hc : CleanCtx c) (lin : List Block) (hl : ∀ b ∈ lin, CleanBlock b) (e : Str) (es : List Str)
    (he : ∀ x ∈ e :: es, '\n' ∉ x) (ns : NS) :
    ∃ r ns', buildSys c lin (e :: es) none ns = some (r, none, ns') ∧
      ns' ['f', '0'] = some (.func ("(".toList ++ c.args ++ ", *args):".toList) (resBody c e)) := by
  obtain ⟨h, n1, a1, a2, a3⟩ := C112_operator _ (clean_name hc "eqn".toList (by decide) (by decide)) lin hl ns
  obtain ⟨n2, b1, b2, _⟩ := C112_residual _ (clean_name hc "f".toList (by decide) (by decide)) (e :: es) he n1
  refine ⟨(h, (e :: es).map fun e => .func ("(".toList ++ c.args ++ ", *args):".toList) (resBody c e)), n2, ?_, b2 0 (by simp)⟩
  unfold buildSys
  simp only [a1, Option.bind_eq_bind, Option.bind_some, b1]
  rfl

/-- Reading a printed list of booleans such as `[True, False]`: the empty list, or words separated by `, `. -/
inductive ReadsBools : Str → List Bool → Prop
  | nil : ReadsBools "[]".toList []
  | one (w : Str) (b : Bool) (hw : (w = "True".toList ∧ b = true) ∨ (w = "False".toList ∧ b = false)) :
      ReadsBools ("[".toList ++ w ++ "]".toList) [b]
  | cons (w : Str) (b : Bool) (hw : (w = "True".toList ∧ b = true) ∨ (w = "False".toList ∧ b = false)) (s : Str) (l : List Bool)
      (hl : l ≠ []) (h : ReadsBools ("[".toList ++ s ++ "]".toList) l) :
      ReadsBools ("[".toList ++ (w ++ (", ".toList ++ s)) ++ "]".toList) (b :: l)

/-- C112: the expression of the info function is the printed info list. -/
theorem C112_info_text (b : Block) : ReadsBools (infoBody b) b.posInfo := by
  have hw : ∀ b : Bool, (boolStr b = "True".toList ∧ b = true) ∨ (boolStr b = "False".toList ∧ b = false) := by
    intro b; cases b <;> simp [boolStr]
  unfold infoBody
  generalize b.posInfo = l
  induction l with
  | nil => exact .nil
  | cons a l ih =>
    cases l with
    | nil => exact .one _ _ (hw a)
    | cons a' l =>
      simp only [List.map_cons, join, List.append_assoc] at ih ⊢
      have := ReadsBools.cons (boolStr a) a (hw a) (join ((a' :: l).map boolStr)) (a' :: l) (by simp) (by simpa using ih)
      simpa using this

/-- C112: what the functions return. A coefficient which is recognised as zero: the zero function on the domain and of the type of the operator; one which
is recognised as constant: its code times the function one; otherwise its code itself (converted to a function for differential
terms). The function of an equation converts the code of the equation. -/
theorem C112_text (c : Ctx) (e : Coef) (code : Str) :
    let zeros := "zeros(1, domain=[".toList ++ c.d0 ++ ", ".toList ++ c.d1 ++ "], type='".toList ++ c.ftype ++ "')".toList
    let ones := "ones(1, domain=[".toList ++ c.d0 ++ ", ".toList ++ c.d1 ++ "], type='".toList ++ c.ftype ++ "')".toList
    (e.zero = true → diffBody c e = zeros ∧ intBody c e = zeros) ∧
    (e.zero = false →
      (e.const = some true → e.hasFun = false → diffBody c e = "(".toList ++ e.code ++ ") * ".toList ++ ones) ∧
      (e.const = some false → e.real = some true → e.hasFun = false → diffBody c e = "(".toList ++ e.code ++ ") * ".toList ++ ones) ∧
      (e.const = none ∨ e.hasFun = true ∨ (e.const = some false ∧ e.real ≠ some true) →
        diffBody c e = "asfun(".toList ++ e.code ++ ", type='".toList ++ c.ftype ++ "')".toList) ∧
      (e.const = some true ∨ e.real = some true → intBody c e = e.code ++ " * ".toList ++ ones) ∧
      (e.const ≠ some true → e.real ≠ some true → intBody c e = e.code)) ∧
    resBody c code = "asfun(".toList ++ code ++ ", type='".toList ++ c.ftype ++ "', domain=[".toList ++ c.d0 ++ ", ".toList ++ c.d1 ++
      "])".toList := by
  have h1 : "zeros(1, domain=[".toList = "zeros(".toList ++ "1, domain=[".toList := by decide
  have h2 : "ones(1, domain=[".toList = "ones(".toList ++ "1, domain=[".toList := by decide
  have h3 : ") * ones(".toList = ") * ".toList ++ "ones(".toList := by decide
  have h4 : " * ones(".toList = " * ".toList ++ "ones(".toList := by decide
  refine ⟨fun h => ?_, fun h => ⟨fun k1 k2 => ?_, fun k1 k2 k3 => ?_, fun k => ?_, fun k => ?_, fun k1 k2 => ?_⟩, rfl⟩
  · unfold diffBody intBody Ctx.onesArgs
    rw [if_pos h, if_pos h, h1]
    simp only [List.append_assoc, and_self]
  · unfold diffBody Ctx.onesArgs
    rw [if_neg (by simp [h]), if_pos (by simp [k1, k2]), h2, h3]
    simp only [List.append_assoc]
  · unfold diffBody Ctx.onesArgs
    rw [if_neg (by simp [h]), if_pos (by simp [k1, k2, k3]), h2, h3]
    simp only [List.append_assoc]
  · unfold diffBody
    rw [if_neg (by simp [h]), if_neg]
    rcases k with k | k | ⟨k1, k2⟩
    · simp [k]
    · simp [k]
    · simp [k1, k2]
  · unfold intBody Ctx.onesArgs
    rw [if_neg (by simp [h]), if_pos k, h2, h4]
    simp only [List.append_assoc]
  · unfold intBody
    rw [if_neg (by simp [h]), if_neg (by simp [k1, k2])]

/-- A block `u'' + x u' + ∫ u` -/
example : CleanBlock ⟨0, 1, [⟨2, ⟨['1'], false, some true, some true, false⟩⟩, ⟨0, ⟨['0'], true, some true, some true, false⟩⟩,
    ⟨1, ⟨['x'], false, none, some false, false⟩⟩], [⟨⟨['1'], false, some true, some true, false⟩, ⟨['u'], false, none, some false, true⟩⟩]⟩ :=
  ⟨by simp, by simp, by simp⟩

example : CleanCtx ⟨"eqn".toList, "u, v".toList, "cheb".toList, "0.0".toList, "1.0".toList⟩ :=
  ⟨by decide, by decide, by decide, by decide, by decide, by decide⟩

end Funpy.Props
