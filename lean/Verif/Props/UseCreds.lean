import Verif.Spec.UseCreds
import Verif.Props.KdlConfig
import Verif.Props.Config
import Verif.Props.Auth
import Verif.Props.Startup
/- Property C65: credentials saved by `oro login` are the ones the next command uses. -/
set_option linter.unusedSectionVars false
namespace Oro
namespace Auth
open Config Startup
variable {parse : Str → Option Url} {text : Url → Str} {num : Int → Str}

/-! ### the file as configuration -/

theorem filter_updFirst {n : Str} {f : KNode → KNode} (hf : ∀ k, (f k).name = k.name) {d : KDoc} {s : KNode}
    (h : d.filter (fun k => k.name = n) = [s]) : (updFirst n f d).filter (fun k => k.name = n) = [f s] := by
  induction d with
  | nil => simp at h
  | cons k d ih =>
    unfold updFirst
    by_cases hk : k.name = n
    · rw [if_pos hk]
      rw [List.filter_cons_of_pos (by simpa using hk)] at h
      rw [List.filter_cons_of_pos (by simpa [hf] using hk)]
      rw [List.cons.injEq] at h
      rw [h.1, h.2]
    · rw [if_neg hk, List.filter_cons_of_neg (by simpa using hk)]
      rw [List.filter_cons_of_neg (by simpa using hk)] at h
      exact ih h

theorem get_none_of_filter {oc : KDoc} {n : Str} (h0 : oc.filter (fun s => s.name = n) = []) : KDoc.get oc n = none := by
  unfold KDoc.get
  rw [List.find?_eq_none]
  exact List.filter_eq_nil_iff.1 h0

theorem get_some_of_filter {oc r : KDoc} {s : KNode} {n : Str} (h0 : oc.filter (fun s => s.name = n) = s :: r) :
    KDoc.get oc n = some s := by
  unfold KDoc.get
  rw [← List.head?_filter, h0]
  rfl

/-- what the options block holds after saving -/
theorem saved_options (uri : Url) (c : Stored) (d : KDoc) (h : OneAuth d) : ∃ o oc l,
    KDoc.get (setCreds parse text uri c d) kOptions = some o ∧ o.children = some oc ∧
    oc.filter (fun s => s.name = kAuth) = [.mk kAuth [] (some (cleanAuth parse uri l ++ [credNode text uri c]))] ∧
    (∀ k ∈ l, AuthNode k) ∧ ∀ k ∈ l, ∃ l', sectionNodes kAuth d = some l' ∧ k ∈ l' := by
  unfold setCreds inSection
  rw [get_updFirst _ _ (name_upd _), if_pos rfl, get_ensure]
  have hcase : ∃ l, (addSection kAuth (((KDoc.get d kOptions).getD (.mk kOptions [] none)).children.getD [])).filter
      (fun s => s.name = kAuth) = [.mk kAuth [] (some l)] ∧ (∀ k ∈ l, AuthNode k) ∧
      ∀ k ∈ l, ∃ l', sectionNodes kAuth d = some l' ∧ k ∈ l' := by
    have hadd : ∀ oc : KDoc, oc.filter (fun s => s.name = kAuth) = [] →
        (addSection kAuth oc).filter (fun s => s.name = kAuth) = [.mk kAuth [] (some [])] := by
      intro oc h0
      unfold addSection
      rw [get_none_of_filter h0, if_pos (by rfl), List.filter_append, h0]
      rfl
    cases h1 : KDoc.get d kOptions with
    | none => exact ⟨[], hadd [] rfl, by simp, by simp⟩
    | some o =>
      cases h2 : o.children with
      | none =>
        simp only [Option.getD_some, h2, Option.getD_none]
        exact ⟨[], hadd [] rfl, by simp, by simp⟩
      | some oc =>
        simp only [Option.getD_some, h2]
        rcases h o oc h1 h2 with h3 | ⟨l, h3, h4⟩
        · exact ⟨[], hadd oc h3, by simp, by simp⟩
        · refine ⟨l, ?_, h4, fun k hk => ⟨l, ?_, hk⟩⟩
          · have : addSection kAuth oc = oc := by
              unfold addSection
              rw [get_some_of_filter h3, if_neg (by simp)]
            rw [this, h3]
          · simp only [sectionNodes, h1, h2, Option.bind_some, get_some_of_filter h3]
            rfl
  obtain ⟨l, h1, h2, h3⟩ := hcase
  exact ⟨_, _, l, rfl, rfl, filter_updFirst (name_upd _) h1, h2, h3⟩

theorem collect_auth {d : KDoc} {o s : KNode} {oc : KDoc} (h1 : KDoc.get d kOptions = some o) (h2 : o.children = some oc)
    (h3 : oc.filter (fun s => s.name = kAuth) = [s]) : (collect num d).get? kAuth = some (nodeValue num s) := by
  unfold collect
  rw [show optionsWord = kOptions from rfl, h1]
  dsimp only
  rw [h2]
  dsimp only
  rw [ofPairs_get, nodePairs_map, ← List.map_reverse, List.find?_map, Option.map_map]
  have : oc.reverse.find? ((fun p : Str × CVal => decide (p.1 = kAuth)) ∘ fun k => (k.name, nodeValue num k)) = some s := by
    rw [← List.head?_filter]
    show (oc.reverse.filter fun k => decide (k.name = kAuth)).head? = some s
    rw [List.filter_reverse, h3]
    rfl
  rw [this]
  rfl

theorem collect_wf (d : KDoc) : (collect num d).WF := by
  unfold collect
  split
  · exact IMap.wf_nil
  · split
    · exact IMap.wf_nil
    · exact ofPairs_wf _

/-- the properties of a registry's node -/
def authProps (k : KNode) : List (Str × Str) :=
  ofPairs (k.entries.filterMap fun e => match e with
    | (some key, .str v) => some (key, v)
    | _ => none)

theorem mem_authProps {k : KNode} {p : Str × Str} (h : p ∈ authProps k) : (some p.1, KVal.str p.2) ∈ k.entries := by
  obtain ⟨e, he, hp⟩ := List.mem_filterMap.1 (mem_ofPairs h)
  obtain ⟨x1, x2⟩ := e
  cases x1 with
  | none => simp at hp
  | some key =>
    cases x2 with
    | str v => simp only [Option.some.injEq] at hp; subst hp; exact he
    | _ => simp at hp

/-- a table of text as a value -/
def textTable (l : List (Str × Str)) : CVal := .table (l.map fun p => (p.1, .str p.2))

/-- the value of a registry's node -/
theorem authNode_value {k : KNode} (h : AuthNode k) : nodeValue num k = textTable (authProps k) ∧ authProps k ≠ [] := by
  have hps : ∀ es : List (Option Str × KVal), (∀ e ∈ es, ∃ key v, e = (some key, KVal.str v) ∧ '=' ∉ key) →
      ∃ ps : List (Str × Str), es = ps.map (fun p => (some p.1, .str p.2)) := by
    intro es
    induction es with
    | nil => intro _; exact ⟨[], rfl⟩
    | cons e es ih =>
      intro he
      obtain ⟨ps, h1⟩ := ih fun e h => he e (List.mem_cons_of_mem _ h)
      obtain ⟨key, v, h3, h4⟩ := he e List.mem_cons_self
      exact ⟨(key, v) :: ps, by rw [h1, h3]; rfl⟩
  obtain ⟨n, es, ch⟩ := k
  obtain ⟨ps, h1⟩ := hps es h.text
  have hne : ps ≠ [] := by
    rintro rfl
    exact h.nonempty h1
  have hfm : authProps (.mk n es ch) = ofPairs ps := by
    unfold authProps
    show ofPairs (es.filterMap _) = _
    rw [h1]
    congr 1
    clear h1 hne
    induction ps with
    | nil => rfl
    | cons p ps ih => rw [List.map_cons, List.filterMap_cons]; dsimp only; rw [ih]
  rw [hfm]
  constructor
  · unfold nodeValue
    have hz : es = (ps.map fun p => (p.1, KVal.str p.2)).map fun p => (some p.1, p.2) := by rw [h1, List.map_map]; rfl
    have hpos : positional es = [] := by rw [hz]; exact positional_props _
    have hprop : properties es = ps.map fun p => (p.1, KVal.str p.2) := by rw [hz]; exact properties_props _
    rw [hpos, hprop]
    dsimp only
    rw [if_pos (by rw [h1]; simpa using hne), List.map_map]
    unfold textTable
    congr 1
    exact ofPairs_map CVal.str ps
  · obtain ⟨l, p, rfl⟩ := List.eq_nil_or_concat ps |>.resolve_left hne
    rw [List.concat_eq_append, ofPairs_snoc]
    intro h0
    have := IMap.get?_insert_self (ofPairs l) p.1 p.2
    rw [h0] at this
    simp at this

/-! ### merging -/

theorem setKey_scalar {root : IMap Str CVal} {k : Str} {v : CVal} (h : Scalar v) : setKey root k v = root.insert k v := by
  cases v with
  | table l => exact absurd rfl (h l)
  | _ => rfl

theorem setAll_new {P : IMap Str CVal} : ∀ root : IMap Str CVal, IMap.WF (root ++ P) →
    (∀ p ∈ P, ∀ root : IMap Str CVal, p.1 ∉ IMap.keys root → setKey root p.1 p.2 = root.insert p.1 p.2) →
    setAll root P = root ++ P := by
  induction P with
  | nil => intro root _ _; simp [setAll]
  | cons p P ih =>
    intro root hw hs
    have hp : p.1 ∉ IMap.keys root := by
      unfold IMap.WF IMap.keys at hw
      rw [List.map_append, List.nodup_append] at hw
      exact fun hm => hw.2.2 p.1 hm p.1 (by simp) rfl
    rw [setAll, setMember, hs p List.mem_cons_self root hp, IMap.insert_of_notMem _ hp,
      ih _ (by simpa using hw) fun q hq => hs q (List.mem_cons_of_mem _ hq)]
    simp

theorem setKey_textTable {root : IMap Str CVal} {k : Str} {l : List (Str × Str)} (hk : k ∉ IMap.keys root) (hl : l ≠ [])
    (hw : IMap.WF l) : setKey root k (textTable l) = root.insert k (textTable l) := by
  have hset : setAll [] (l.map fun p => (p.1, CVal.str p.2)) = l.map fun p => (p.1, CVal.str p.2) := by
    rw [setAll_new [] (by rw [List.nil_append]; exact IMap.wf_map hw), List.nil_append]
    intro p hp root _
    obtain ⟨q, _, rfl⟩ := List.mem_map.1 hp
    exact setKey_scalar (by intro l h; cases h)
  unfold textTable
  cases l with
  | nil => exact absurd rfl hl
  | cons p l =>
    rw [List.map_cons] at hset ⊢
    rw [setKey]
    have : tableOf (root.get? k) = [] := by rw [(IMap.get?_eq_none_iff root k).2 hk]; rfl
    rw [this]
    rw [setAll] at hset
    rw [hset]

/-! ### reading the values -/

theorem readAll_ok {α : Type} {f : Str → Outcome α} {vals : List Str} (h : ∀ s ∈ vals, ∃ a, f s = .ok a) :
    ∃ l, readAll f vals = .ok l ∧ ∀ a, a ∈ l ↔ ∃ s ∈ vals, f s = .ok a := by
  induction vals with
  | nil => exact ⟨[], rfl, by simp⟩
  | cons s vals ih =>
    obtain ⟨l, h1, h2⟩ := ih fun s hs => h s (List.mem_cons_of_mem _ hs)
    obtain ⟨a, ha⟩ := h s List.mem_cons_self
    refine ⟨a :: l, by simp [readAll, ha, h1], ?_⟩
    intro b
    rw [List.mem_cons, h2]
    constructor
    · rintro (rfl | ⟨s', hs', hb⟩)
      · exact ⟨s, List.mem_cons_self, ha⟩
      · exact ⟨s', List.mem_cons_of_mem _ hs', hb⟩
    · rintro ⟨s', hs', hb⟩
      rcases List.mem_cons.1 hs' with rfl | hs'
      · rw [ha] at hb; cases hb; exact .inl rfl
      · exact .inr ⟨s', hs', hb⟩

/-- the values of a table of tables of text -/
theorem mem_valueArgs {Q : List (Str × List (Str × Str))} {s : Str} :
    s ∈ valueArgs (.table (Q.map fun q => (q.1, textTable q.2))) ↔
      ∃ q ∈ Q, ∃ p ∈ q.2, s = '{' :: (q.1 ++ '}' :: (p.1 ++ '=' :: p.2)) := by
  unfold valueArgs
  rw [List.mem_flatMap]
  constructor
  · rintro ⟨x, hx, hs⟩
    obtain ⟨q, hq, rfl⟩ := List.mem_map.1 hx
    simp only [textTable] at hs
    obtain ⟨e, he, rfl⟩ := List.mem_map.1 hs
    obtain ⟨p, hp, rfl⟩ := List.mem_map.1 he
    exact ⟨q, hq, p, hp, by simp [disp, asString]⟩
  · rintro ⟨q, hq, p, hp, rfl⟩
    refine ⟨_, List.mem_map.2 ⟨q, hq, rfl⟩, ?_⟩
    simp only [textTable]
    exact List.mem_map.2 ⟨_, List.mem_map.2 ⟨p, hp, rfl⟩, by simp [disp, asString]⟩

/-! ### the property -/

theorem credNode_auth {uri : Url} (c : Stored) : AuthNode (credNode text uri c) := by
  refine ⟨?_, ?_⟩
  · cases c with
    | token t => simp [credNode, KNode.entries]
    | legacy t => simp [credNode, KNode.entries]
    | basic u p => cases p <;> simp [credNode, KNode.entries]
  · intro e he
    cases c with
    | token t => simp only [credNode, KNode.entries, List.mem_singleton] at he; exact ⟨_, _, he, by decide⟩
    | legacy t => simp only [credNode, KNode.entries, List.mem_singleton] at he; exact ⟨_, _, he, by decide⟩
    | basic u p =>
      cases p with
      | none => simp only [credNode, KNode.entries, List.mem_singleton] at he; exact ⟨_, _, he, by decide⟩
      | some p =>
        simp only [credNode, KNode.entries, List.mem_cons, List.not_mem_nil, or_false] at he
        rcases he with he | he
        · exact ⟨_, _, he, by decide⟩
        · exact ⟨_, _, he, by decide⟩

theorem credNode_props {uri : Url} (c : Stored) {key v : Str} (h : (some key, KVal.str v) ∈ (credNode text uri c).entries) :
    (key, v) ∈ authProps (credNode text uri c) := by
  cases c with
  | token t => simpa [credNode, KNode.entries, authProps, ofPairs, IMap.insert] using h
  | legacy t => simpa [credNode, KNode.entries, authProps, ofPairs, IMap.insert] using h
  | basic u p =>
    cases p with
    | none => simpa [credNode, KNode.entries, authProps, ofPairs, IMap.insert] using h
    | some p => simpa [credNode, KNode.entries, authProps, ofPairs, IMap.insert, kUser, kPass] using h

/-- what the configuration holds for `auth`, for an auth section with these nodes -/
theorem section_table (L : List KNode) (hLA : ∀ k ∈ L, AuthNode k) (hnd : ∃ k ∈ L, k.name ≠ dash) (file : IMap Str CVal)
    (hwf : file.WF) (hfile : file.get? kAuth = some (nodeValue num (.mk kAuth [] (some L)))) (root : IMap Str CVal)
    (hroot : root.get? kAuth = none) : (setAll root file).get? kAuth =
      some (.table ((ofPairs (L.map fun k => (k.name, authProps k))).map fun q => (q.1, textTable q.2))) := by
  have hg := hfile
  -- the section is a table
  have hv : nodeValue num (.mk kAuth [] (some L)) = .table ((ofPairs (L.map fun k => (k.name, authProps k))).map
      fun q => (q.1, textTable q.2)) := by
    have hall : ¬ L.all (fun k => decide (k.name = dash)) = true := by
      rw [List.all_eq_true]
      intro hall
      obtain ⟨k, hm, hn⟩ := hnd
      exact hn (of_decide_eq_true (hall _ hm))
    simp only [nodeValue, positional, List.filter_nil, List.map_nil, ne_eq, not_true_eq_false, if_false, blockValue]
    rw [if_neg hall, nodePairs_map]
    congr 1
    rw [← ofPairs_map, List.map_map]
    congr 1
    refine List.map_congr_left ?_
    intro k hk
    show (k.name, nodeValue num k) = (k.name, textTable (authProps k))
    rw [(authNode_value (hLA k hk)).1]
  rw [hv] at hg
  rw [get_setAll _ hwf root kAuth, hg]
  dsimp only
  generalize hQ : ofPairs (L.map fun k => (k.name, authProps k)) = Q
  have hQw : IMap.WF Q := by rw [← hQ]; exact ofPairs_wf _
  have hQe : ∀ q ∈ Q, q.2 ≠ [] ∧ IMap.WF q.2 := by
    intro q hq
    rw [← hQ] at hq
    obtain ⟨k, hk, rfl⟩ := List.mem_map.1 (mem_ofPairs hq)
    exact ⟨(authNode_value (num := num) (hLA k hk)).2, ofPairs_wf _⟩
  have hQne : Q ≠ [] := by
    intro h0
    have : ∃ q v, IMap.get? Q q = some v := by
      rw [← hQ]
      obtain ⟨k0, hk0, _⟩ := hnd
      have hne : (L.map fun k => (k.name, authProps k)) ≠ [] := by
        intro h
        rw [List.map_eq_nil_iff] at h
        rw [h] at hk0
        cases hk0
      obtain ⟨l, p, hlp⟩ := List.eq_nil_or_concat (L.map fun k => (k.name, authProps k)) |>.resolve_left hne
      rw [hlp, List.concat_eq_append, ofPairs_snoc]
      exact ⟨_, _, IMap.get?_insert_self ..⟩
    rw [h0] at this
    simp at this
  rw [get_setKey_table root kAuth (by simpa using hQne), hroot]
  show some (CVal.table (setAll [] (Q.map fun q => (q.1, textTable q.2)))) = _
  rw [setAll_new [] (by rw [List.nil_append]; exact IMap.wf_map hQw), List.nil_append]
  intro p hp root' hk
  obtain ⟨q, hq, rfl⟩ := List.mem_map.1 hp
  exact setKey_textTable hk (hQe q hq).1 (hQe q hq).2

theorem setAll_none {n : Str} (m root : IMap Str CVal) (hw : m.WF) (hn : m.get? n = none) :
    (setAll root m).get? n = root.get? n := by
  rw [get_setAll m hw root n, hn]

/-- the values a later command gets -/
theorem later_perm {n : Str} {file : IMap Str CVal} (r : LaterCommand n file) {x : Option CVal}
    (hset : ∀ root : IMap Str CVal, root.get? n = none → (setAll root file).get? n = x) :
    r.vals.Perm (((x.map valueArgs).getD []).map some) := by
  obtain ⟨hw0, hw1, hw2⟩ := r.wf
  obtain ⟨h0, h1, h2⟩ := r.only
  have hget : r.cfg.get? n = x := by
    rcases r.loaded with h | h
    · rw [h]; unfold load
      rw [setAll_none _ _ hw1 h1, setAll_none _ _ hw2 h2]
      exact hset _ (by rw [setAll_none _ _ hw0 h0]; rfl)
    · rw [h]; unfold load
      exact hset _ (by rw [setAll_none _ _ hw2 h2, setAll_none _ _ hw1 h1, setAll_none _ _ hw0 h0]; rfl)
  obtain ⟨hname, htakes, hrev⟩ := r.option_name
  have hv := (C40_values r.declared r.typed r.option_mem r.cli_complete r.order_perm (by
    rw [hname]
    constructor
    · intro h; exact absurd h r.cli_raw
    · rintro ⟨v, hv⟩; exact absurd rfl (r.cli_silent _ hv).2) htakes hrev).2 (by
    rintro ⟨e, he, h | h⟩
    · exact (r.cli_silent e he).1 (h.trans hname)
    · exact (r.cli_silent e he).2 (by rw [h, hname]))
  have hvals := r.vals_perm
  rw [hname, hget] at hv
  rw [hv] at hvals
  exact hvals

theorem mem_later {n : Str} {file : IMap Str CVal} (r : LaterCommand n file) {x : CVal}
    (hset : ∀ root : IMap Str CVal, root.get? n = none → (setAll root file).get? n = some x) (s : Str) :
    s ∈ r.vals.filterMap id ↔ s ∈ valueArgs x := by
  have hvals := later_perm r hset
  constructor
  · intro h
    obtain ⟨x, hx, hxs⟩ := List.mem_filterMap.1 h
    rw [hvals.mem_iff] at hx
    obtain ⟨y, hy, rfl⟩ := List.mem_map.1 hx
    cases hxs
    exact hy
  · intro h
    exact List.mem_filterMap.2 ⟨some s, hvals.mem_iff.2 (List.mem_map.2 ⟨s, h, rfl⟩), rfl⟩

/-- the values a later command gets, for an auth section with these nodes -/
theorem later_section (L : List KNode) (hLA : ∀ k ∈ L, AuthNode k) (hnd : ∃ k ∈ L, k.name ≠ dash) (file : IMap Str CVal)
    (hwf : file.WF) (hfile : file.get? kAuth = some (nodeValue num (.mk kAuth [] (some L)))) (r : LaterCommand kAuth file) (s : Str) :
    s ∈ r.vals.filterMap id ↔ ∃ q ∈ ofPairs (L.map fun k => (k.name, authProps k)), ∃ p ∈ q.2,
      s = '{' :: (q.1 ++ '}' :: (p.1 ++ '=' :: p.2)) := by
  have hset := section_table (num := num) L hLA hnd file hwf hfile
  rw [mem_later r hset, mem_valueArgs]

/-- the values a later command gets -/
theorem later_values (uri : Url) (hdash : text uri ≠ ['-']) (c : Stored) (d : KDoc) (hd : OneAuth d) (file : IMap Str CVal)
    (hwf : file.WF) (hfile : file.get? kAuth = (collect num (setCreds parse text uri c d)).get? kAuth) (r : LaterCommand kAuth file) :
    ∃ Q : List (Str × List (Str × Str)),
    (∀ s, s ∈ r.vals.filterMap id ↔ ∃ q ∈ Q, ∃ p ∈ q.2, s = '{' :: (q.1 ++ '}' :: (p.1 ++ '=' :: p.2))) ∧
    (∀ q ∈ Q, ∃ k, ((∃ l, sectionNodes kAuth d = some l ∧ k ∈ l ∧ ∃ u, parse k.name = some u ∧ nerf u ≠ nerf uri) ∨
      k = credNode text uri c) ∧ AuthNode k ∧ q = (k.name, authProps k)) ∧
    (text uri, authProps (credNode text uri c)) ∈ Q := by
  obtain ⟨o, oc, l, h1, h2, h3, hl, hl2⟩ := saved_options (parse := parse) (text := text) uri c d hd
  have hLA : ∀ k ∈ cleanAuth parse uri l ++ [credNode text uri c], AuthNode k := by
    intro k hk
    rw [List.mem_append, List.mem_singleton] at hk
    rcases hk with hk | rfl
    · exact hl k (List.mem_filter.1 hk).1
    · exact credNode_auth c
  refine ⟨_, later_section (num := num) _ hLA ⟨credNode text uri c, by simp, by rw [credNode_name]; exact hdash⟩ file hwf
    (hfile.trans (collect_auth (num := num) h1 h2 h3)) r, ?_, ?_⟩
  · intro q hq
    obtain ⟨k, hk, rfl⟩ := List.mem_map.1 (mem_ofPairs hq)
    refine ⟨k, ?_, hLA k hk, rfl⟩
    rw [List.mem_append, List.mem_singleton] at hk
    rcases hk with hk | rfl
    · obtain ⟨hk, hf⟩ := List.mem_filter.1 hk
      obtain ⟨l', hl', hkl⟩ := hl2 k hk
      refine .inl ⟨l', hl', hkl, ?_⟩
      cases hpk : parse k.name with
      | none => rw [hpk] at hf; simp at hf
      | some u => rw [hpk] at hf; exact ⟨u, rfl, by simpa using hf⟩
    · exact .inr rfl
  · rw [← IMap.get?_some_iff_mem (ofPairs_wf _), List.map_append, List.map_singleton, ofPairs_snoc, IMap.get?_insert,
      if_pos (credNode_name ..).symm]

/-- C65 for files that agree about `auth` -/
theorem use_core (uri : Url) (ht : parse (text uri) = some uri) (hdash : parse ['-'] = none)
    (hu : Address (text uri)) (c : Stored) (d : KDoc) (hd : OneAuth d)
    (ha : ∀ l, sectionNodes kAuth d = some l → ∀ k ∈ l, Address k.name) (file : IMap Str CVal)
    (hwf : file.WF) (hfile : file.get? kAuth = (collect num (setCreds parse text uri c d)).get? kAuth) (r : LaterCommand kAuth file) :
    ∃ creds, commandCreds parse r.vals = .ok (some creds) ∧ creds.get? (nerf uri) = some (meaning c) := by
  obtain ⟨Q, hmemv, hQm, hq0⟩ := later_values uri (by intro h; rw [h, hdash] at ht; cases ht) c d hd file hwf hfile r
  have haddr : ∀ k, ((∃ l, sectionNodes kAuth d = some l ∧ k ∈ l ∧ ∃ u, parse k.name = some u ∧ nerf u ≠ nerf uri) ∨
      k = credNode text uri c) → Address k.name := by
    rintro k (⟨l, h1, h2, _⟩ | rfl)
    · exact ha l h1 k h2
    · rw [credNode_name]; exact hu
  have hread : ∀ q ∈ Q, ∀ p ∈ q.2, nested ('{' :: (q.1 ++ '}' :: (p.1 ++ '=' :: p.2))) = .ok (q.1, p.1, p.2) := by
    intro q hq p hp
    obtain ⟨k, hk0, hk, rfl⟩ := hQm q hq
    obtain ⟨key, v, he, hkey⟩ := hk.text _ (mem_authProps hp)
    have : p.1 = key := by simpa using congrArg Prod.fst he
    have hadr := haddr k hk0
    exact C51_nested [] k.name p.1 p.2 (by simp) hadr.1 (by
      simp only [List.nil_append, List.mem_append, not_or]
      exact ⟨hadr.2, this ▸ hkey⟩)
  obtain ⟨es, hes, hmem⟩ := readAll_ok (f := nested) (vals := r.vals.filterMap id) (by
    intro s hs
    obtain ⟨q, hq, p, hp, rfl⟩ := (hmemv s).1 hs
    exact ⟨_, hread q hq p hp⟩)
  have hcc := used_core (parse := parse) (text := text) uri ht c es (by
    intro e he
    obtain ⟨s, hs, hse⟩ := (hmem e).1 he
    obtain ⟨q, hq, p, hp, rfl⟩ := (hmemv s).1 hs
    rw [hread q hq p hp] at hse
    cases hse
    obtain ⟨k, hk, _, rfl⟩ := hQm q hq
    rcases hk with ⟨_, _, _, u, hu', hn⟩ | rfl
    · exact ⟨u, hu', fun h => absurd h hn⟩
    · exact ⟨uri, by rw [credNode_name]; exact ht, fun _ => ⟨credNode_name .., mem_authProps hp⟩⟩) (by
    intro key v hkv
    have hpm := credNode_props c hkv
    exact (hmem _).2 ⟨_, (hmemv _).2 ⟨_, hq0, _, hpm, rfl⟩, hread _ hq0 _ hpm⟩)
  obtain ⟨creds, h3, h4⟩ := hcc
  refine ⟨creds, ?_, h4⟩
  unfold commandCreds
  rw [hes]
  dsimp only
  rw [h3]

/-- **C65**: `oro login` saves credentials for a registry in a configuration file; any later command – whatever its other
options and the order in which options and table entries are looked at – then uses exactly these credentials for the
registry. Proved for files with at most one auth section that holds nothing but registries' nodes, and addresses without
closing braces and equal signs. -/
theorem C65_login_then_use (uri : Url) (ht : parse (text uri) = some uri) (hdash : parse ['-'] = none)
    (hu : Address (text uri)) (c : Stored) (d : KDoc) (hd : OneAuth d)
    (ha : ∀ l, sectionNodes kAuth d = some l → ∀ k ∈ l, Address k.name)
    (r : LaterCommand kAuth (collect num (setCreds parse text uri c d))) :
    ∃ creds, commandCreds parse r.vals = .ok (some creds) ∧ creds.get? (nerf uri) = some (meaning c) :=
  use_core uri ht hdash hu c d hd ha _ (collect_wf _) rfl r

theorem readAll_bad {α : Type} {f : Str → Outcome α} {vals : List Str} {s : Str} (hs : s ∈ vals) (h : ∀ a, f s ≠ .ok a)
    (l : List α) : readAll f vals ≠ .ok l := by
  intro hl
  induction vals generalizing l with
  | nil => cases hs
  | cons x vals ih =>
    rw [readAll] at hl
    rcases List.mem_cons.1 hs with rfl | hs
    · cases hx : f s with
      | ok a => exact h a hx
      | err => rw [hx] at hl; cases hl
      | panic => rw [hx] at hl; cases hl
    · cases hx : f x with
      | ok a =>
        rw [hx] at hl
        dsimp only at hl
        cases hr : readAll f vals with
        | ok l' => exact ih hs l' hr
        | err => rw [hr] at hl; cases hl
        | panic => rw [hr] at hl; cases hl
      | err => rw [hx] at hl; cases hl
      | panic => rw [hx] at hl; cases hl

/-- **C65 fails** for addresses with an equal sign: after `oro login` no command works any more. -/
theorem C65_address_fails (uri : Url) (ht : parse (text uri) = some uri) (hdash : parse ['-'] = none) (h1 : '=' ∈ text uri)
    (h2 : '}' ∉ text uri) (c : Stored) (d : KDoc) (hd : OneAuth d)
    (r : LaterCommand kAuth (collect num (setCreds parse text uri c d))) (res : Option (IMap Str Cred)) :
    commandCreds parse r.vals ≠ .ok res := by
  obtain ⟨Q, hmemv, _, hq0⟩ := later_values uri (by intro h; rw [h, hdash] at ht; cases ht) c d hd _ (collect_wf _) rfl r
  have hne := (authNode_value (num := num) (credNode_auth (text := text) (uri := uri) c)).2
  obtain ⟨p, hp⟩ := List.exists_mem_of_ne_nil _ hne
  have hin := (hmemv _).2 ⟨_, hq0, p, hp, rfl⟩
  intro hres
  unfold commandCreds at hres
  cases hr : readAll nested (r.vals.filterMap id) with
  | ok l =>
    refine readAll_bad hin ?_ l hr
    intro a ha
    rw [C51_nested_fails _ _ _ h1 h2] at ha
    cases ha
  | err => rw [hr] at hres; cases hres
  | panic => rw [hr] at hres; cases hres

/-- **C65 fails** for an auth section that has a value or properties of its own: what is saved in its block is not looked
at. -/
theorem C65_entries_fails (uri : Url) (c : Stored) (d : KDoc) (o s : KNode) (oc : KDoc) (h1 : KDoc.get d kOptions = some o)
    (h2 : o.children = some oc) (h3 : oc.filter (fun s => s.name = kAuth) = [s]) (h4 : s.entries ≠ []) :
    (collect num (setCreds parse text uri c d)).get? kAuth = (collect num d).get? kAuth := by
  rw [collect_auth h1 h2 h3]
  have hoc : addSection kAuth oc = oc := by
    unfold addSection
    rw [get_some_of_filter h3, if_neg (by simp)]
  have hnew := filter_updFirst (f := updChildren fun l => cleanAuth parse uri l ++ [credNode text uri c]) (name_upd _) h3
  have hg : KDoc.get (setCreds parse text uri c d) kOptions = some (updChildren (updFirst kAuth
      (updChildren fun l => cleanAuth parse uri l ++ [credNode text uri c])) (updChildren (addSection kAuth) (ensureChildren o))) := by
    unfold setCreds inSection
    rw [get_updFirst _ _ (name_upd _), if_pos rfl, get_ensure, h1]
    rfl
  rw [collect_auth hg (by
    show some (updFirst kAuth _ (addSection kAuth (o.children.getD []))) = _
    rw [h2, Option.getD_some, hoc]) hnew]
  obtain ⟨n, es, ch⟩ := s
  show some (nodeValue num (.mk n es (ch.map _))) = _
  rw [C64_block_fails n es _ h4, C64_block_fails n es ch h4]

/-- **C65 fails** for a file with two auth sections: the credentials are saved in the first, and the last is looked at. -/
theorem C65_two_fails (uri : Url) (c : Stored) (d : KDoc) (o s s' : KNode) (oc pre mid post : KDoc)
    (h1 : KDoc.get d kOptions = some o) (h2 : o.children = some oc) (h3 : oc = pre ++ s :: (mid ++ s' :: post))
    (hs : s.name = kAuth) (hs' : s'.name = kAuth) (hpost : ∀ k ∈ post, k.name ≠ kAuth) :
    (collect num (setCreds parse text uri c d)).get? kAuth = (collect num d).get? kAuth := by
  have hlast : ∀ (d : KDoc) (o : KNode) (a : KDoc), KDoc.get d kOptions = some o → o.children = some (a ++ s' :: post) →
      (collect num d).get? kAuth = some (nodeValue num s') := by
    intro d o a g1 g2
    rw [C64_options]
    unfold KDoc.get at g1
    rw [List.find?_eq_some_iff_append] at g1
    obtain ⟨e1, p, q, e2, e3⟩ := g1
    refine ⟨p, o, q, _, a, s', post, e2, ?_, of_decide_eq_true e1, g2, rfl, hs', hpost, rfl⟩
    intro x hx
    exact of_decide_eq_false (show decide (x.name = kOptions) = false by simpa only [Bool.not_eq_true'] using e3 x hx)
  rw [hlast d o (pre ++ s :: mid) h1 (by rw [h2, h3]; simp)]
  have hoc : addSection kAuth oc = oc := by
    unfold addSection
    rw [if_neg]
    intro hn
    rw [Option.isNone_iff_eq_none] at hn
    unfold KDoc.get at hn
    rw [List.find?_eq_none] at hn
    exact hn s (by rw [h3]; simp) (by simpa using hs)
  have hupd : ∀ (f : KNode → KNode) (pre rest : KDoc), ∃ a, updFirst kAuth f (pre ++ s :: (mid ++ rest)) = a ++ rest := by
    intro f pre rest
    induction pre with
    | nil => exact ⟨f s :: mid, by simp [updFirst, hs]⟩
    | cons k pre ih =>
      rw [List.cons_append, updFirst]
      split
      · exact ⟨f k :: (pre ++ s :: mid), by simp⟩
      · obtain ⟨a, ha⟩ := ih
        exact ⟨k :: a, by rw [ha]; rfl⟩
  obtain ⟨a, ha⟩ := hupd (updChildren fun l => cleanAuth parse uri l ++ [credNode text uri c]) pre (s' :: post)
  have hg : KDoc.get (setCreds parse text uri c d) kOptions = some (updChildren (updFirst kAuth
      (updChildren fun l => cleanAuth parse uri l ++ [credNode text uri c])) (updChildren (addSection kAuth) (ensureChildren o))) := by
    unfold setCreds inSection
    rw [get_updFirst _ _ (name_upd _), if_pos rfl, get_ensure, h1]
    rfl
  refine hlast _ _ a hg ?_
  show some (updFirst kAuth _ (addSection kAuth (o.children.getD []))) = _
  rw [h2, Option.getD_some, hoc, h3, ha]

/-- **C65 fails** for addresses that are no full URLs, such as the `my.registry.com` of the help text: every command fails. -/
theorem C65_short_fails (opts : List AuthOpt) (e : AuthOpt) (he : e ∈ opts) (h : parse e.1 = none) : clientCreds parse opts = none := by
  have : ∀ (l : List AuthOpt) (m : Option (IMap Str Cred)), e ∈ l → l.foldl (addCred parse opts) m = none := by
    intro l
    induction l with
    | nil => intro _ hm; cases hm
    | cons x l ih =>
      intro m hm
      rw [List.foldl_cons]
      rcases List.mem_cons.1 hm with rfl | hm
      · have : addCred parse opts m e = none := by cases m <;> simp [addCred, h]
        rw [this, fold_none]
      · exact ih _ hm
  exact this opts _ he

/-- the hypotheses are met: the document of the examples of C39, and a command with no other options -/
def sampleFile : IMap Str CVal :=
  collect (fun _ => []) (setCreds sampleParse (fun u => u.host.getD []) ⟨[], some ['r'], none, ['/'], []⟩ (.token ['3']) (sampleDoc ['2']))

theorem sampleFile_eq : sampleFile = [(['t'], .str ['y']), (kAuth, .table [(['q'], .table [(kToken, .str ['1'])]),
    (['r'], .table [(kToken, .str ['3'])])])] := rfl

example : OneAuth (sampleDoc ['2']) := by
  intro o oc h1 h2
  cases h1
  cases h2
  refine .inr ⟨_, rfl, ?_⟩
  intro k hk
  simp only [List.mem_cons, List.not_mem_nil, or_false] at hk
  rcases hk with rfl | rfl <;>
  · refine ⟨by simp [KNode.entries], ?_⟩
    intro e he
    simp only [KNode.entries, List.mem_singleton] at he
    exact ⟨_, _, he, by decide⟩

/-- a later command with no other options -/
def sampleLater : LaterCommand kAuth sampleFile where
  defaults := []
  other := []
  env := []
  cfg := load [] sampleFile [] []
  wf := ⟨IMap.wf_nil, IMap.wf_nil, IMap.wf_nil⟩
  only := ⟨rfl, rfl, rfl⟩
  loaded := .inl rfl
  opts := [⟨kAuth, true, false⟩]
  declared := ⟨by decide, by decide, by decide⟩
  typed := by
    refine ⟨?_, ?_, ?_⟩
    · intro o ho ht
      rw [List.mem_singleton] at ho
      rw [ho] at ht
      cases ht
    · intro o ho _ v hv
      rw [List.mem_singleton] at ho
      rw [ho, sampleFile_eq] at hv
      cases hv
      rfl
    · intro o ho _ v hv o' ho'
      rw [List.mem_singleton] at ho ho'
      rw [ho, sampleFile_eq] at hv
      cases hv
      rw [ho, ho']
      decide
  option := ⟨kAuth, true, false⟩
  option_mem := List.mem_singleton.2 rfl
  option_name := ⟨rfl, rfl, rfl⟩
  cli := []
  cli_complete := rfl
  cli_silent := by simp [events]
  cli_raw := by simp
  order := [⟨kAuth, true, false⟩]
  order_perm := .refl _
  vals := values [⟨kAuth, true, false⟩] (layered [⟨kAuth, true, false⟩] (load [] sampleFile [] []) [⟨kAuth, true, false⟩] []) ⟨kAuth, true, false⟩
  vals_perm := .refl _

example : commandCreds sampleParse sampleLater.vals = .ok (some [(['/','/','q','/'], .token ['1']), (['/','/','r','/'], .token ['3'])]) := by
  rfl

end Auth
end Oro
