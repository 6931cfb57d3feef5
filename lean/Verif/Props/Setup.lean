import Verif.Spec.Setup
import Verif.Props.Login
import Verif.Props.Config
set_option linter.unusedSectionVars false
/-!
# First-time setup and telemetry
-/
namespace Oro
namespace Setup
open Auth Config

theorem positional_setArg0 (v : KVal) (es : List (Option Str × KVal)) (h : (positional es).length ≤ 1) :
    positional (setArg0 v es) = [v] := by
  induction es with
  | nil => rfl
  | cons e es ih =>
    obtain ⟨p, w⟩ := e
    cases p with
    | none =>
      simp only [positional, List.filter_cons, Option.isNone_none, ↓reduceIte, List.map_cons, List.length_cons] at h
      have : positional es = [] := List.length_eq_zero_iff.1 (by unfold positional; omega)
      unfold positional at this
      simp [setArg0, positional, this]
    | some p =>
      have h' : (positional es).length ≤ 1 := by simpa [positional] using h
      have := ih h'
      simpa [setArg0, positional] using this

/-- recording a value leaves the node's properties alone -/
theorem setArg0_named (v : KVal) (es : List (Option Str × KVal)) :
    (setArg0 v es).filter (fun e => e.1.isSome) = es.filter (fun e => e.1.isSome) := by
  induction es with
  | nil => rfl
  | cons e es ih =>
    obtain ⟨p, w⟩ := e
    cases p with
    | none => rfl
    | some p => simp [setArg0, ih]

/-- the options of a document's first options block -/
def block (d : KDoc) : List KNode := ((KDoc.get d kOptions).bind KNode.children).getD []

theorem hasOption_block {d : KDoc} (h : OneBlock d) (n : Str) : hasOption n d = (block d).any fun c => c.name = n := by
  unfold hasOption block
  have : ((nodesIn d).any fun k => k.name = kOptions && (k.children.getD []).any fun c => c.name = n) =
      ((nodesIn d).filter fun k => k.name = kOptions).any fun k => (k.children.getD []).any fun c => c.name = n := by
    rw [List.any_filter]
  rw [this, h]
  cases KDoc.get d kOptions <;> simp

/-- the nodes of the name in a list, at any depth -/
abbrev blocksIn (l : List KNode) : List KNode := (nodesIn l).filter fun k => k.name = kOptions

theorem nodesIn_append (a b : List KNode) : nodesIn (a ++ b) = nodesIn a ++ nodesIn b := by
  induction a with
  | nil => rfl
  | cons k a ih => rw [List.cons_append, nodesIn, nodesIn, ih, List.append_assoc]

theorem name_mk (n : Str) (es : List (Option Str × KVal)) (ch : Option (List KNode)) : (KNode.mk n es ch).name = n := rfl

theorem blocks_get {d : KDoc} {o : KNode} (h : KDoc.get d kOptions = some o) : (nodesIn d).filter (fun k => k.name = kOptions) ≠ [] := by
  have h1 := List.mem_of_find?_eq_some h
  have h2 := List.find?_some h
  have : o ∈ nodesIn d := by
    clear h h2
    induction d with
    | nil => cases h1
    | cons k d ih =>
      rw [nodesIn, List.mem_append]
      rcases List.mem_cons.1 h1 with rfl | h1
      · obtain ⟨n, es, ch⟩ := o
        rw [nodesOf]
        exact .inl List.mem_cons_self
      · exact .inr (ih h1)
  intro hn
  have := (List.mem_filter (p := fun k : KNode => decide (k.name = kOptions))).2 ⟨this, h2⟩
  rw [hn] at this
  cases this

theorem oneBlock_upd {d : KDoc} (h : OneBlock d) (f : KNode → KNode) (hn : ∀ k, (f k).name = k.name)
    (hf : ∀ k, ((nodesOpt k.children).filter fun c => c.name = kOptions) = [] →
      ((nodesOpt (f k).children).filter fun c => c.name = kOptions) = []) : OneBlock (updFirst kOptions f d) := by
  unfold OneBlock at h ⊢
  rw [get_updFirst _ _ hn, if_pos rfl]
  induction d with
  | nil => rfl
  | cons k d ih =>
    obtain ⟨kn, ke, kc⟩ := k
    unfold updFirst
    rw [nodesIn, nodesOf] at h
    by_cases hk : kn = kOptions
    · rw [name_mk, if_pos hk]
      have hg : KDoc.get (KNode.mk kn ke kc :: d) kOptions = some (.mk kn ke kc) := by
        simp [KDoc.get, name_mk, hk]
      rw [hg] at h ⊢
      simp only [List.cons_append, List.filter_cons, List.filter_append, name_mk, hk, decide_true, ↓reduceIte, Option.toList_some,
        List.cons.injEq, true_and, List.append_eq_nil_iff] at h
      have h1 := hf (.mk kn ke kc) h.1
      have hnm := hn (.mk kn ke kc)
      rw [hk] at h1 hnm ⊢
      rw [Option.map_some, Option.toList_some]
      revert h1 hnm
      generalize f (.mk kOptions ke kc) = k' at *
      obtain ⟨kn', ke', kc'⟩ := k'
      intro h1 hnm
      rw [name_mk, name_mk] at hnm
      subst hnm
      rw [nodesIn, nodesOf]
      simp only [KNode.children] at h1
      simp only [List.cons_append, List.filter_cons, List.filter_append, name_mk, decide_true, ↓reduceIte, h1, h.2,
        List.append_nil]
    · rw [name_mk, if_neg hk]
      have hg : KDoc.get (KNode.mk kn ke kc :: d) kOptions = KDoc.get d kOptions := by
        simp [KDoc.get, name_mk, hk]
      rw [hg] at h ⊢
      rw [nodesIn, nodesOf]
      simp only [List.cons_append, List.filter_cons, List.filter_append, name_mk, hk, decide_false, Bool.false_eq_true,
        ↓reduceIte] at h ⊢
      have hkc : List.filter (fun k => decide (k.name = kOptions)) (nodesOpt kc) = [] := by
        cases hd : KDoc.get d kOptions with
        | none =>
          rw [hd] at h
          exact (List.append_eq_nil_iff.1 h).1
        | some o =>
          rw [hd] at h
          have hne := blocks_get hd
          cases hx : List.filter (fun k => decide (k.name = kOptions)) (nodesOpt kc) with
          | nil => rfl
          | cons a l =>
            rw [hx] at h
            have := congrArg List.length h
            have hl := List.length_pos_iff.2 hne
            simp only [List.cons_append, List.length_cons, List.length_append, Option.toList_some, List.length_nil] at this
            omega
      rw [hkc, List.nil_append] at h ⊢
      exact ih h

/-- what recording an option does -/
structure Marked (n : Str) (b : Bool) (d d' : KDoc) : Prop where
  one : OneBlock d'
  there : ∃ o, KDoc.get d' kOptions = some o
  value : ∃ k, (block d').filter (fun s => s.name = n) = [k] ∧ positional k.entries = [.bool b]
  other : (block d').filter (fun s => s.name ≠ n) = (block d).filter (fun s => s.name ≠ n)
  rest : d'.filter (fun k => k.name ≠ kOptions) = d.filter (fun k => k.name ≠ kOptions)

theorem block_upd (g : KNode → KNode) (hg : ∀ k, (g k).name = k.name) {d : KDoc} {o : KNode} (ho : KDoc.get d kOptions = some o) :
    block (updFirst kOptions g d) = (g o).children.getD [] := by
  unfold block
  rw [get_updFirst _ _ hg, if_pos rfl, ho]
  rfl

theorem nodes_set (n : Str) (hn : n ≠ kOptions) (g : KNode → KNode) (hg : ∀ k, (g k).name = k.name ∧ (g k).children = k.children)
    (l : List KNode) (h : (nodesIn l).filter (fun c => c.name = kOptions) = []) :
    (nodesIn (updFirst n g l)).filter (fun c => c.name = kOptions) = [] := by
  induction l with
  | nil => rfl
  | cons k l ih =>
    rw [nodesIn, List.filter_append, List.append_eq_nil_iff] at h
    unfold updFirst
    split
    · rename_i hk
      rw [nodesIn, List.filter_append, h.2, List.append_nil]
      obtain ⟨h1, h2⟩ := hg k
      revert h1 h2
      generalize g k = k'
      obtain ⟨kn', ke', kc'⟩ := k'
      obtain ⟨kn, ke, kc⟩ := k
      intro h1 h2
      cases h1
      cases h2
      have := h.1
      rw [nodesOf, List.filter_cons] at this
      rw [nodesOf, List.filter_cons]
      rw [name_mk] at this hk ⊢
      subst hk
      rw [if_neg (by simpa using hn)] at this ⊢
      exact this
    · rw [nodesIn, List.filter_append, h.1, ih h.2, List.append_nil]

theorem set_ok (n : Str) (hn : n ≠ kOptions) (b : Bool) {d : KDoc} (h1 : OneBlock d) {o : KNode} (ho : KDoc.get d kOptions = some o)
    {oc : KDoc} (hc : o.children = some oc) {k : KNode} (hk : oc.filter (fun s => s.name = n) = [k])
    (hp : (positional k.entries).length ≤ 1) : Marked n b d
      (updFirst kOptions (updChildren (updFirst n fun k => .mk k.name (setArg0 (.bool b) k.entries) k.children)) d) := by
  have hset : ∀ k : KNode, (KNode.mk k.name (setArg0 (.bool b) k.entries) k.children).name = k.name := fun _ => rfl
  have hb : block d = oc := by unfold block; rw [ho, Option.bind_some, hc]; rfl
  have hb' : block (updFirst kOptions (updChildren (updFirst n fun k => .mk k.name (setArg0 (.bool b) k.entries) k.children)) d) =
      updFirst n (fun k => .mk k.name (setArg0 (.bool b) k.entries) k.children) oc := by
    rw [block_upd _ (name_upd _) ho]
    unfold updChildren
    rw [hc]
    rfl
  refine ⟨?_, ?_, ?_, ?_, ?_⟩
  · refine oneBlock_upd h1 _ (name_upd _) ?_
    rintro ⟨kn, ke, kc⟩ hk
    cases kc with
    | none => rfl
    | some kc => exact nodes_set n hn (fun k => .mk k.name (setArg0 (.bool b) k.entries) k.children) (fun _ => ⟨rfl, rfl⟩) kc hk
  · rw [get_updFirst _ _ (name_upd _), if_pos rfl, ho]
    exact ⟨_, rfl⟩
  · rw [hb', filter_updFirst hset hk]
    exact ⟨_, rfl, positional_setArg0 _ _ hp⟩
  · rw [hb', hb, others_updFirst _ _ hset]
  · exact others_updFirst _ _ (name_upd _) d

theorem mark_ok (n : Str) (hn : n ≠ kOptions) (b : Bool) {d : KDoc} (h1 : OneBlock d) (h2 : OneNode n d) {o : KNode}
    (ho : KDoc.get d kOptions = some o) : ∃ d', mark (hasOption n d) n b d = some d' ∧ Marked n b d d' := by
  have hb : block d = o.children.getD [] := by unfold block; rw [ho]; rfl
  unfold mark
  rw [hasOption_block h1, hb]
  cases hf : (o.children.getD []).any fun c => c.name = n with
  | true =>
    rw [if_pos rfl]
    dsimp only
    rw [ho]
    cases hc : o.children with
    | none => rw [hc] at hf; simp at hf
    | some oc =>
      rw [hc, Option.getD_some] at hf
      rw [Option.bind_some, hc, Option.map_some]
      refine ⟨_, rfl, ?_⟩
      rcases h2 o oc ho hc with h | ⟨k, hk, hp⟩
      · exfalso
        rw [List.filter_eq_nil_iff] at h
        obtain ⟨c, hc1, hc2⟩ := List.any_eq_true.1 hf
        exact h c hc1 hc2
      · exact set_ok n hn b h1 ho hc hk hp
  | false =>
    rw [if_neg (by decide)]
    dsimp only
    have hname : ∀ k, (updChildren (fun l => l ++ [KNode.mk n [(none, .bool b)] none]) (ensureChildren k)).name = k.name := fun _ => rfl
    have hone := oneBlock_upd h1 _ hname (by
      rintro ⟨kn, ke, kc⟩ hk
      unfold updChildren ensureChildren
      simp only [KNode.children, Option.map_some, nodesOpt] at hk ⊢
      rw [nodesIn_append, List.filter_append]
      have hz : (nodesIn (kc.getD [])).filter (fun c => c.name = kOptions) = [] := by
        cases kc with
        | none => rfl
        | some kc => exact hk
      rw [hz, nodesIn, nodesIn, nodesOf, nodesOpt]
      simp [name_mk, hn])
    have hg : KDoc.get (updFirst kOptions (fun o => updChildren (fun l => l ++ [KNode.mk n [(none, .bool b)] none]) (ensureChildren o)) d)
        kOptions = some (updChildren (fun l => l ++ [KNode.mk n [(none, .bool b)] none]) (ensureChildren o)) := by
      rw [get_updFirst _ _ hname, if_pos rfl, ho]
      rfl
    have hch : (updChildren (fun l => l ++ [KNode.mk n [(none, .bool b)] none]) (ensureChildren o)).children =
        some (o.children.getD [] ++ [KNode.mk n [(none, .bool b)] none]) := rfl
    rw [hg, Option.bind_some, hch, Option.map_some]
    refine ⟨_, rfl, ?_⟩
    have hnil : (o.children.getD []).filter (fun s => s.name = n) = [] := by
      rw [List.filter_eq_nil_iff]
      intro c hc hcn
      have := List.any_eq_false.1 hf c hc
      exact this hcn
    have hm := set_ok n hn b hone hg hch (k := .mk n [(none, .bool b)] none)
      (by rw [List.filter_append, hnil]; simp [name_mk]) (by simp [positional, KNode.entries])
    refine ⟨hm.one, hm.there, hm.value, ?_, ?_⟩
    · rw [hm.other, hb]
      unfold block
      rw [hg, Option.bind_some, hch, Option.getD_some, List.filter_append]
      simp [name_mk]
    · rw [hm.rest, others_updFirst _ _ hname]

theorem find_last {l : List KNode} {n : Str} {k : KNode} (h : l.filter (fun s => s.name = n) = [k]) :
    l.reverse.find? (fun s => s.name = n) = some k := by
  rw [← List.head?_filter, List.filter_reverse, h]
  rfl

theorem find_other {l l' : List KNode} {n m : Str} (hm : m ≠ n) (h : l'.filter (fun s => s.name ≠ n) = l.filter (fun s => s.name ≠ n)) :
    l'.filter (fun s => s.name = m) = l.filter (fun s => s.name = m) := by
  have key : ∀ l : List KNode, l.filter (fun s => s.name = m) = (l.filter (fun s => s.name ≠ n)).filter fun s => s.name = m := by
    intro l
    rw [List.filter_filter]
    congr 1
    funext s
    by_cases hs : s.name = m
    · simp [hs, hm]
    · simp [hs]
  rw [key, h, ← key]

variable {num : Int → Str}

theorem collect_block (d : KDoc) (n : Str) :
    (collect num d).get? n = ((block d).reverse.find? fun k => k.name = n).map (nodeValue num) := Login.collect_get num d n

theorem nodeValue_one {k : KNode} {v : KVal} (h : positional k.entries = [v]) : nodeValue num k = valueKind num v := by
  obtain ⟨n, es, ch⟩ := k
  rw [nodeValue]
  simp only [KNode.entries] at h
  rw [h]

theorem Marked.collected {n : Str} {b : Bool} {d d' : KDoc} (h : Marked n b d d') :
    (collect num d').get? n = some (.bool b) ∧ ∀ m, m ≠ n → (collect num d').get? m = (collect num d).get? m := by
  constructor
  · obtain ⟨k, hk, hp⟩ := h.value
    rw [collect_block, find_last hk, Option.map_some, nodeValue_one hp]
    rfl
  · intro m hm
    rw [collect_block, collect_block, ← List.head?_filter, List.filter_reverse, find_other hm h.other, ← List.filter_reverse,
      List.head?_filter]

theorem Marked.node {n m : Str} {b : Bool} {d d' : KDoc} (h : Marked n b d d') (hm : m ≠ n) (h1 : OneNode m d) : OneNode m d' := by
  intro o oc ho hc
  have hb : block d' = oc := by unfold block; rw [ho, Option.bind_some, hc]; rfl
  have hf := find_other hm h.other
  rw [hb] at hf
  rw [hf]
  unfold block
  cases h2 : KDoc.get d kOptions with
  | none => exact .inl rfl
  | some o' =>
    rw [Option.bind_some]
    cases h3 : o'.children with
    | none => exact .inl rfl
    | some oc' => exact h1 o' oc' h2 h3

/-- **C70** (what the setup records): it never crashes, afterwards the file says that the setup was done and what the user
answered, if there was someone to ask; all other options and everything else in the file are as before. -/
theorem C70_recorded (num : Int → Str) (answer : Option Bool) (d : KDoc) (hd : Tidy d) : ∃ d', record answer d = some d' ∧
    (collect num d').get? kFirstTime = some (.bool false) ∧
    (∀ b, answer = some b → (collect num d').get? kTelemetry = some (.bool b)) ∧
    (∀ n, n ≠ kFirstTime → (n = kTelemetry → answer = none) → (collect num d').get? n = (collect num d).get? n) ∧
    d'.filter (fun k => k.name ≠ kOptions) = d.filter (fun k => k.name ≠ kOptions) := by
  have hk1 : kTelemetry ≠ kOptions := by decide
  have hk2 : kFirstTime ≠ kOptions := by decide
  have hk3 : kFirstTime ≠ kTelemetry := by decide
  -- with an options node
  obtain ⟨d1, hd1, ht1, o, ho, hcol, hrest, hhas⟩ : ∃ d1, (if (KDoc.get d kOptions).isNone then d ++ [.mk kOptions [] none] else d) = d1 ∧
      Tidy d1 ∧ ∃ o, KDoc.get d1 kOptions = some o ∧ (∀ n, (collect num d1).get? n = (collect num d).get? n) ∧
      d1.filter (fun k => k.name ≠ kOptions) = d.filter (fun k => k.name ≠ kOptions) ∧ ∀ n, hasOption n d = hasOption n d1 := by
    cases hg : KDoc.get d kOptions with
    | some o =>
      rw [if_neg (by simp)]
      exact ⟨d, rfl, hd, o, hg, fun _ => rfl, rfl, fun _ => rfl⟩
    | none =>
      rw [if_pos Option.isNone_none]
      have hg' : KDoc.get (d ++ [.mk kOptions [] none]) kOptions = some (.mk kOptions [] none) := by
        rw [get_append, hg, get_single, name_mk, if_pos rfl]
        rfl
      have hone : OneBlock (d ++ [.mk kOptions [] none]) := by
        have := hd.block
        unfold OneBlock at this ⊢
        rw [hg] at this
        rw [hg', nodesIn_append, List.filter_append, this, nodesIn, nodesIn, nodesOf, nodesOpt]
        simp [name_mk]
      have hb : block d = [] := by unfold block; rw [hg]; rfl
      have hb' : block (d ++ [.mk kOptions [] none]) = [] := by unfold block; rw [hg']; rfl
      have hn : ∀ n, OneNode n (d ++ [.mk kOptions [] none]) := by
        intro n o oc h1 h2
        rw [hg'] at h1
        cases h1
        cases h2
      refine ⟨_, rfl, ⟨hone, hn _, hn _⟩, _, hg', ?_, ?_, ?_⟩
      · intro n
        rw [collect_block, collect_block, hb, hb']
      · rw [List.filter_append]
        simp [name_mk]
      · intro n
        rw [hasOption_block hd.block, hasOption_block hone, hb, hb']
  unfold record
  dsimp only
  rw [hd1, hhas]
  cases answer with
  | none =>
    dsimp only
    rw [Option.bind_some]
    obtain ⟨d', h1, h2⟩ := mark_ok kFirstTime hk2 false ht1.block ht1.first ho
    obtain ⟨h3, h4⟩ := h2.collected (num := num)
    refine ⟨d', h1, h3, ?_, ?_, ?_⟩
    · intro b hb
      cases hb
    · intro n hn _
      rw [h4 n hn, hcol]
    · rw [h2.rest, hrest]
  | some b =>
    dsimp only
    obtain ⟨d2, h1, h2⟩ := mark_ok kTelemetry hk1 b ht1.block ht1.telemetry ho
    obtain ⟨h3, h4⟩ := h2.collected (num := num)
    obtain ⟨o2, ho2⟩ := h2.there
    obtain ⟨d', h5, h6⟩ := mark_ok kFirstTime hk2 false h2.one (h2.node hk3 ht1.first) ho2
    obtain ⟨h7, h8⟩ := h6.collected (num := num)
    rw [h1, Option.bind_some]
    refine ⟨d', h5, h7, ?_, ?_, ?_⟩
    · intro b' hb
      cases hb
      rw [h8 _ hk3.symm, h3]
    · intro n hn hn'
      have : n ≠ kTelemetry := by
        intro h
        cases hn' h
      rw [h8 n hn, h4 n this, hcol]
    · rw [h6.rest, h2.rest, hrest]

/-! ### runs -/

theorem on_value {file : IMap Str CVal} (r : Run file) (hw : file.WF) {o : Opt} (ho : o ∈ r.opts) (ht : o.takes = false)
    (hrev : o.reversed = true) (hq : r.Silent o.name) (hv : ∀ v, file.get? o.name = some v → ∃ b, v = .bool b) :
    r.on o = ((file.get? o.name).bind asBool).getD true := by
  obtain ⟨⟨h1, h2⟩, h3, h4, h5⟩ := hq
  have hsw : switch r.opts r.cli o = none := by
    unfold switch lastMention
    rw [Option.map_eq_none_iff, Option.map_eq_none_iff, List.find?_eq_none]
    intro e he
    have := h1 e (List.mem_reverse.1 he)
    simp [this.1, this.2]
  have hraw : dashes (neg o.name) ∈ r.cli ↔ ∃ v, (neg o.name, v) ∈ events (takesOf r.opts) r.cli := by
    constructor
    · intro h
      exact absurd h h2
    · rintro ⟨v, hv⟩
      exact absurd rfl (h1 _ hv).2
  have hcfg : r.cfg.get? o.name = file.get? o.name := by
    unfold Run.cfg
    rw [C40_layers r.defaults file r.env r.project r.wf.1 hw r.wf.2.2 r.wf.2.1 o.name, h3, h4, h5]
    · simp
    · intro m hm v hmv
      simp only [List.mem_cons, List.not_mem_nil, or_false] at hm
      rcases hm with rfl | rfl | rfl | rfl
      · rw [h3] at hmv; cases hmv
      · obtain ⟨b, rfl⟩ := hv v hmv
        intro l hl
        cases hl
      · rw [h5] at hmv; cases hmv
      · rw [h4] at hmv; cases hmv
  unfold Run.on
  rw [C40_reversed_partial (cfg := r.cfg) r.declared r.typed ho r.cli_complete r.order_perm hraw ht hrev (by rw [hsw]; simp), hsw]
  show Option.getD (Option.or none ((r.cfg.get? o.name).bind asBool)) true = _
  rw [hcfg]
  rfl

/-- **C70** (asked once): after a command that asked the user, the commands that follow neither ask again nor change the
file, and send reports if and only if the user agreed, wherever they run; unless something else than this file speaks of
these options. -/
theorem C70_asked_once (num : Int → Str) (d : KDoc) (hd : Tidy d) (firstTime telemetry ci : Bool) (b : Bool) (t : Bool) (d' : KDoc)
    (hs : start firstTime telemetry ci true (some b) (.doc d) = .go t (some d')) (r : Run (collect num d'))
    (h1 : r.Silent kFirstTime) (h2 : r.Silent kTelemetry) : t = b ∧ r.starts (.doc d') = .go b none := by
  obtain ⟨d2, e1, e2, e3, -⟩ := C70_recorded num (some b) d hd
  unfold start at hs
  split at hs
  · dsimp only at hs
    rw [if_pos rfl, e1] at hs
    cases hs
    refine ⟨rfl, ?_⟩
    have o1 : r.on firstTimeOpt = false := by
      rw [on_value r (collect_wf _) r.first_mem rfl rfl h1 (by
        intro v hv
        rw [show firstTimeOpt.name = kFirstTime from rfl, e2] at hv
        cases hv
        exact ⟨_, rfl⟩), show firstTimeOpt.name = kFirstTime from rfl, e2]
      rfl
    have o2 : r.on telemetryOpt = b := by
      rw [on_value r (collect_wf _) r.telemetry_mem rfl rfl h2 (by
        intro v hv
        rw [show telemetryOpt.name = kTelemetry from rfl, e3 b rfl] at hv
        cases hv
        exact ⟨_, rfl⟩), show telemetryOpt.name = kTelemetry from rfl, e3 b rfl]
      rfl
    unfold Run.starts start
    rw [o1, o2]
    rfl
  · cases hs

/-- C70 (switching it off): if the command line has `--no-telemetry` as its last word on telemetry then no reports are sent,
unless this is the first run and the user agrees when asked. -/
theorem C70_off {file : IMap Str CVal} (r : Run file) (f : File) (hoff : switch r.opts r.cli telemetryOpt = some false)
    (hraw : dashes (neg kTelemetry) ∈ r.cli) (dsn : Bool) (hrep : reports dsn (r.starts f) = true) :
    r.on firstTimeOpt = true ∧ r.ci = false ∧ r.terminal = true ∧ r.answer = some true := by
  have hon : r.on telemetryOpt = false := by
    unfold Run.on
    rw [C40_reversed_partial (cfg := r.cfg) r.declared r.typed r.telemetry_mem r.cli_complete r.order_perm ?_ rfl rfl (by rw [hoff]; simp), hoff]
    · rfl
    · refine ⟨fun _ => ?_, fun _ => hraw⟩
      unfold switch at hoff
      obtain ⟨n, hn, hn2⟩ := Option.map_eq_some_iff.1 hoff
      unfold lastMention at hn
      obtain ⟨e, he, hen⟩ := Option.map_eq_some_iff.1 hn
      have h1 := List.find?_some he
      have h2 := List.mem_reverse.1 (List.mem_of_find?_eq_some he)
      subst hen
      have h3 : e.1 ≠ telemetryOpt.name := by simpa using hn2
      have h4 : e.1 = neg telemetryOpt.name := by simpa [h3] using h1
      exact ⟨e.2, by rw [← h4]; exact h2⟩
  unfold Run.starts start at hrep
  rw [hon] at hrep
  split at hrep
  · rename_i hfc
    rw [Bool.and_eq_true] at hfc
    obtain ⟨hf, hc⟩ := hfc
    cases f with
    | nowhere => simp [reports] at hrep
    | bad => simp [reports] at hrep
    | doc d =>
      dsimp only at hrep
      split at hrep
      · rename_i hterm
        split at hrep
        · simp [reports] at hrep
        · rename_i b hb
          split at hrep
          · simp [reports] at hrep
          · simp only [reports, Bool.and_eq_true] at hrep
            refine ⟨hf, by simpa using hc, hterm, ?_⟩
            rw [hb, hrep.1]
      · split at hrep <;> simp [reports] at hrep
  · simp [reports] at hrep

/-- **C70 fails** (opt-in): telemetry is on although the user never agreed to it: in CI, and in every run for which the file
that says that the setup was done was written by a run without a terminal, as in a script. Reports are sent if there is an
address for them, which release builds contain. -/
theorem C70_optin_fails (num : Int → Str) (d : KDoc) (hd : Tidy d) (hn : (collect num d).get? kTelemetry = none) (telemetry : Bool)
    (answer : Option Bool) : ∃ d', start true telemetry false false answer (.doc d) = .go telemetry (some d') ∧
    (∀ r : Run (collect num d'), r.Silent kFirstTime → r.Silent kTelemetry → reports true (r.starts (.doc d')) = true) ∧
    ∀ r : Run (collect num d), r.ci = true → r.Silent kTelemetry → reports true (r.starts (.doc d)) = true := by
  obtain ⟨d', e1, e2, -, e4, -⟩ := C70_recorded num none d hd
  refine ⟨d', ?_, ?_, ?_⟩
  · unfold start
    dsimp only
    rw [if_pos (by decide), if_neg (by decide), e1]
  · intro r h1 h2
    have hn' : (collect num d').get? telemetryOpt.name = none := by
      rw [show telemetryOpt.name = kTelemetry from rfl, e4 _ (by decide) (fun _ => rfl), hn]
    have o1 : r.on firstTimeOpt = false := by
      rw [on_value r (collect_wf _) r.first_mem rfl rfl h1 (by
        intro v hv
        rw [show firstTimeOpt.name = kFirstTime from rfl, e2] at hv
        cases hv
        exact ⟨_, rfl⟩), show firstTimeOpt.name = kFirstTime from rfl, e2]
      rfl
    have o2 : r.on telemetryOpt = true := by
      rw [on_value r (collect_wf _) r.telemetry_mem rfl rfl h2 (by
        intro v hv
        rw [hn'] at hv
        cases hv), hn']
      rfl
    unfold Run.starts start
    rw [o1, o2]
    rfl
  · intro r hci h2
    have o2 : r.on telemetryOpt = true := by
      rw [on_value r (collect_wf _) r.telemetry_mem rfl rfl h2 (by
        intro v hv
        rw [show telemetryOpt.name = kTelemetry from rfl, hn] at hv
        cases hv), show telemetryOpt.name = kTelemetry from rfl, hn]
      rfl
    unfold Run.starts start
    rw [hci, o2]
    simp [reports]

/-- **C70 fails** (crash): the setup crashes if the first options node of the file has no block and another one, anywhere in
the file, holds the option. -/
theorem C70_panic_fails (d : KDoc) (o : KNode) (ho : KDoc.get d kOptions = some o) (hc : o.children = none)
    (hf : hasOption kFirstTime d = true) (telemetry : Bool) (answer : Option Bool) :
    start true telemetry false false answer (.doc d) = .panic := by
  unfold start
  dsimp only
  rw [if_pos (by decide), if_neg (by decide)]
  have : record none d = none := by
    unfold record mark
    dsimp only
    rw [ho, if_neg (by simp), Option.bind_some, hf, if_pos rfl, ho, Option.bind_some, hc]
    rfl
  rw [this]

/-- a file with two nodes for `first-time` -/
def twice : KDoc := [.mk kOptions [] (some [.mk kFirstTime [(none, .bool true)] none, .mk kFirstTime [(none, .bool true)] none])]

/-- **C70 fails** (asked again): if the file has two nodes for the option then the first one is changed and the last one is
read, so every command does the setup and asks again. -/
theorem C70_two_fails (num : Int → Str) (b : Bool) : ∃ d', record (some b) twice = some d' ∧
    (collect num d').get? kFirstTime = some (.bool true) := by
  exact ⟨_, rfl, rfl⟩

/-! ### cases that meet the hypotheses -/

/-- a file with another option, that says telemetry is off -/
def sampleConf : KDoc := [.mk ['x'] [] none, .mk kOptions [] (some [.leaf ['r'] ['q'], .mk kTelemetry [(none, .bool false)] none])]

example : Tidy sampleConf := by
  refine ⟨rfl, ?_, ?_⟩
  · intro o oc h1 h2
    cases h1
    cases h2
    exact .inr ⟨_, rfl, by decide⟩
  · intro o oc h1 h2
    cases h1
    cases h2
    exact .inl rfl

example : record (some true) sampleConf = some [.mk ['x'] [] none, .mk kOptions [] (some [.leaf ['r'] ['q'],
    .mk kTelemetry [(none, .bool true)] none, .mk kFirstTime [(none, .bool false)] none])] := rfl

example : record none [] = some [.mk kOptions [] (some [.mk kFirstTime [(none, .bool false)] none])] := rfl

example : Tidy [] := ⟨rfl, fun _ _ h => (by cases h), fun _ _ h => (by cases h)⟩

/-- a run that says nothing of the two options, for any file in which they are switches -/
def sampleRun (file : IMap Str CVal) (ht : Typed [firstTimeOpt, telemetryOpt] (load [] file [] [])) (ci : Bool) : Run file where
  defaults := []
  project := []
  env := []
  wf := ⟨IMap.wf_nil, IMap.wf_nil, IMap.wf_nil⟩
  opts := [firstTimeOpt, telemetryOpt]
  declared := ⟨by decide, by decide, by decide⟩
  typed := ht
  first_mem := by decide
  telemetry_mem := by decide
  cli := [['x']]
  cli_complete := rfl
  order := [firstTimeOpt, telemetryOpt]
  order_perm := .refl _
  ci := ci
  terminal := true
  answer := none

example (file : IMap Str CVal) (ht : Typed [firstTimeOpt, telemetryOpt] (load [] file [] [])) (ci : Bool) :
    (sampleRun file ht ci).Silent kFirstTime ∧ (sampleRun file ht ci).Silent kTelemetry := by
  have : events (takesOf [firstTimeOpt, telemetryOpt]) [['x']] = [] := rfl
  refine ⟨⟨⟨?_, show dashes (neg _) ∉ [['x']] by decide⟩, rfl, rfl, rfl⟩, ⟨⟨?_, show dashes (neg _) ∉ [['x']] by decide⟩, rfl, rfl, rfl⟩⟩
  all_goals
    intro e he
    simp only [sampleRun] at he
    rw [this] at he
    cases he

example : Typed [firstTimeOpt, telemetryOpt] (load [] [(kFirstTime, .bool false), (kTelemetry, .bool true)] [] []) := by
  have h : load [] [(kFirstTime, .bool false), (kTelemetry, .bool true)] [] [] = [(kFirstTime, .bool false), (kTelemetry, .bool true)] := by
    rfl
  rw [h]
  refine ⟨?_, ?_, ?_⟩
  · intro o ho _ v hv
    simp only [List.mem_cons, List.not_mem_nil, or_false] at ho
    rcases ho with rfl | rfl
    · cases hv
      exact ⟨_, rfl⟩
    · cases hv
      exact ⟨_, rfl⟩
  all_goals
    intro o ho ht
    simp only [List.mem_cons, List.not_mem_nil, or_false] at ho
    rcases ho with rfl | rfl <;> cases ht

/-- a command line as in `C70_off` -/
example : let cli := [dashes (neg kTelemetry), ['x']]
    switch [firstTimeOpt, telemetryOpt] cli telemetryOpt = some false ∧ dashes (neg kTelemetry) ∈ cli ∧
    complete (takesOf [firstTimeOpt, telemetryOpt]) cli = true := by decide

/-- a file as in `C70_panic_fails` -/
example : let d : KDoc := [.mk kOptions [] none, .mk kOptions [] (some [.mk kFirstTime [] none])]
    KDoc.get d kOptions = some (.mk kOptions [] none) ∧ hasOption kFirstTime d = true := ⟨rfl, rfl⟩

end Setup
end Oro
