import Verif.Proofs.Config
/-
C40: configuration precedence.
-/
set_option linter.unusedSectionVars false
namespace Oro
namespace Config

/-! ### the layers -/

/-- C40 (files and environment): the value of a key is the project file's, else the environment's, else the global
file's, else the default. -/
theorem C40_layers (defaults globalFile env project : IMap Str CVal) (h1 : defaults.WF) (h2 : globalFile.WF) (h3 : env.WF)
    (h4 : project.WF) (k : Str)
    (hs : ∀ m ∈ [defaults, globalFile, env, project], ∀ v, IMap.get? m k = some v → Scalar v) :
    (load defaults globalFile env project).get? k =
      (project.get? k).or ((env.get? k).or ((globalFile.get? k).or (defaults.get? k))) := by
  have hstep : ∀ (m root : IMap Str CVal), m.WF → (∀ v, m.get? k = some v → Scalar v) →
      (setAll root m).get? k = (m.get? k).or (root.get? k) := by
    intro m root hw hsc
    rw [get_setAll m hw root k]
    cases hv : m.get? k with
    | none => simp
    | some v => dsimp only; rw [get_setKey_scalar root k (hsc v hv)]; rfl
  unfold load
  rw [hstep project _ h4 (hs _ (by simp)), hstep env _ h3 (hs _ (by simp)), hstep globalFile _ h2 (hs _ (by simp)),
    hstep defaults _ h1 (hs _ (by simp))]
  simp

/-- C40 (tables, such as credentials and scoped registries): two sources' tables are merged entry by entry, and of
two entries for one key the later source's counts. -/
theorem C40_tables (root m : IMap Str CVal) (hw : m.WF) (k : Str) (a b : IMap Str CVal) (ha : root.get? k = some (.table a))
    (hb : m.get? k = some (.table b)) (hbw : b.WF) (hb2 : b ≠ []) (hs : ∀ s v, b.get? s = some v → Scalar v) :
    ∃ t : IMap Str CVal, (setAll root m).get? k = some (.table t) ∧ ∀ s, t.get? s = (b.get? s).or (a.get? s) := by
  rw [get_setAll m hw root k, hb]
  dsimp only
  rw [get_setKey_table root k hb2, ha]
  refine ⟨_, rfl, ?_⟩
  intro s
  rw [get_setAll b hbw _ s]
  cases hv : b.get? s with
  | none => simp [tableOf]
  | some v => dsimp only; rw [get_setKey_scalar _ _ (hs s v hv)]; rfl

/-- C40 is false of the environment for options whose name has a dash: a variable (named without dashes, as shells
require) never sets them. -/
theorem C40_env_fails (vars : List (Str × Str)) (hv : ∀ v ∈ vars, '-' ∉ v.1) (opt : Str) (ho : '-' ∈ opt) :
    (envSource vars).get? opt = none := by
  have hl : ∀ c : Char, c.toLower = '-' → c = '-' := by
    intro c h
    unfold Char.toLower at h
    split at h
    · rename_i hc
      exfalso
      have := congrArg Char.toNat h
      simp only [Char.toNat] at this
      have h1 := congrArg UInt32.toNat (show (c.val + ('a'.val - 'A'.val)) = ('-' : Char).val from congrArg Char.val h)
      have h2 := UInt32.le_iff_toNat_le.1 hc.1
      have h3 := UInt32.le_iff_toNat_le.1 hc.2
      rw [UInt32.toNat_add] at h1
      have e1 : ('a'.val - 'A'.val).toNat = 32 := by decide
      have e2 : ('-' : Char).val.toNat = 45 := by decide
      have e3 : ('A' : Char).val.toNat = 65 := by decide
      have e4 : ('Z' : Char).val.toNat = 90 := by decide
      rw [e1, e2] at h1
      rw [e3] at h2
      rw [e4] at h3
      omega
    · exact h
  have hgo : ∀ (l : List (Str × Str)) (m : IMap Str CVal), (∀ v ∈ l, '-' ∉ v.1) → m.get? opt = none →
      (l.foldl (fun m v => match envKey v.1 with
        | none => m
        | some k => IMap.insert m k (.str v.2)) m).get? opt = none := by
    intro l
    induction l with
    | nil => intro m _ hm; exact hm
    | cons v l ih =>
      intro m hvs hm
      rw [List.foldl_cons]
      refine ih _ (fun v hv => hvs v (List.mem_cons_of_mem _ hv)) ?_
      cases hk : envKey v.1 with
      | none => exact hm
      | some k =>
        dsimp only
        rw [IMap.get?_insert, if_neg, hm]
        intro he
        unfold envKey at hk
        split at hk
        · rw [Option.some.injEq] at hk
          rw [he, ← hk] at ho
          have := List.mem_of_mem_drop ho
          unfold lower at this
          obtain ⟨c, hc, hce⟩ := List.mem_map.1 this
          exact hvs v List.mem_cons_self (hl c hce ▸ hc)
        · cases hk
  exact hgo vars [] hv rfl

/-! ### the command line -/

section cli
variable {opts : List Opt} (hd : Declared opts) {cfg : IMap Str CVal} (hc : Typed opts cfg) {o : Opt} (ho : o ∈ opts)
  {cli : List Str} (hcm : complete (takesOf opts) cli = true) {order : List Opt} (hp : order.Perm opts)
  (hraw : dashes (neg o.name) ∈ cli ↔ ∃ v, (neg o.name, v) ∈ events (takesOf opts) cli)

include hd hc ho hcm hp hraw

/-- C40 (switches): whatever the order in which options are looked at, what the command line says of a switch, in either
form, counts; only if it says nothing does the configuration. Proved for switches whose own flag is `--name`; the others
are below. -/
theorem C40_switch (ht : o.takes = false) (hrev : o.reversed = false) :
    switch opts (layered opts cfg order cli) o = (switch opts cli o).or ((cfg.get? o.name).bind asBool) := by
  unfold switch
  have hm := layered_mentions hd hc ho hcm hp
  rw [lastMention_mentions, lastMention_mentions, hm]
  have hgv : given opts cli o = true ↔ (mentions o (events (takesOf opts) cli)).getLast?.map Prod.fst = some o.name := by
    unfold given
    rw [lastMention_mentions, hrev]
    simp
  cases hl : (mentions o (events (takesOf opts) cli)).getLast? with
  | some e =>
    -- it is mentioned
    have he := List.mem_of_getLast? hl
    have hskip : given opts cli o = true ∨ dashes (neg o.name) ∈ cli := by
      have hen := List.mem_filter.1 he
      have : e.1 = o.name ∨ e.1 = neg o.name := by simpa using hen.2
      rcases this with h | h
      · left; rw [hgv, hl]; simp [h]
      · right
        rw [hraw]
        exact ⟨e.2, by rw [← h]; exact hen.1⟩
    rw [if_pos hskip, List.append_nil, hl]
    rfl
  | none =>
    have hnil : mentions o (events (takesOf opts) cli) = [] := List.getLast?_eq_none_iff.1 hl
    have hns : ¬ (given opts cli o = true ∨ dashes (neg o.name) ∈ cli) := by
      rintro (h | h)
      · rw [hgv, hl] at h; simp at h
      · obtain ⟨v, hv⟩ := hraw.1 h
        have : (neg o.name, v) ∈ mentions o (events (takesOf opts) cli) := List.mem_filter.2 ⟨hv, by simp⟩
        rw [hnil] at this; simp at this
    rw [if_neg hns, hnil, List.nil_append]
    unfold added
    cases hv : cfg.get? o.name with
    | none => rfl
    | some v =>
      obtain ⟨b, hb⟩ := hc.switches o ho ht v hv
      dsimp only
      rw [(events_switch hd ho ht hb).1]
      simp only [List.getLast?_singleton, Option.map_some, Option.bind_some, hb, Option.map_none, Option.none_or, Option.some.injEq]
      cases b with
      | true => simp
      | false => simp [Ne.symm (hd.noneg o ho o ho)]

/-- C40 (switches): in the environment and in files, and whatever the case, the words "1", "true", "on" and "yes" switch on and "0",
"false", "off" and "no" switch off. -/
theorem C40_switch_words (ht : o.takes = false) (hrev : o.reversed = false) (hq : switch opts cli o = none) (s : Str)
    (hs : cfg.get? o.name = some (.str s)) :
    (switch opts (layered opts cfg order cli) o = some true ↔ lower s = ['1'] ∨ lower s = ['t', 'r', 'u', 'e'] ∨ lower s = ['o', 'n'] ∨ lower s = ['y', 'e', 's']) ∧
    (switch opts (layered opts cfg order cli) o = some false ↔
      lower s = ['0'] ∨ lower s = ['f', 'a', 'l', 's', 'e'] ∨ lower s = ['o', 'f', 'f'] ∨ lower s = ['n', 'o']) := by
  rw [C40_switch hd hc ho hcm hp hraw ht hrev, hq, hs, Option.none_or, Option.bind_some]
  simp only [asBool, yesWords, noWords, List.mem_cons, List.not_mem_nil, or_false]
  split
  · rename_i h
    refine ⟨⟨fun _ => h, fun _ => rfl⟩, ⟨fun h => (by cases h), fun h' => ?_⟩⟩
    rcases h with h | h | h | h <;> rcases h' with h' | h' | h' | h' <;> (rw [h] at h'; exact absurd h' (by decide))
  · rename_i h
    split
    · rename_i h'
      exact ⟨⟨fun k => (by cases k), fun k => absurd k h⟩, ⟨fun _ => h', fun _ => rfl⟩⟩
    · rename_i h'
      exact ⟨⟨fun k => (by cases k), fun k => absurd k h⟩, ⟨fun k => (by cases k), fun k => absurd k h'⟩⟩

/-- C40 (switches whose own flag is `--no-name`, such as `--no-scripts`): the same, unless the command line switches them
on with `--name`. -/
theorem C40_reversed_partial (ht : o.takes = false) (hrev : o.reversed = true) (hon : switch opts cli o ≠ some true) :
    switch opts (layered opts cfg order cli) o = (switch opts cli o).or ((cfg.get? o.name).bind asBool) := by
  unfold switch at hon ⊢
  have hm := layered_mentions hd hc ho hcm hp
  rw [lastMention_mentions] at hon
  rw [lastMention_mentions, lastMention_mentions, hm]
  have hgv : given opts cli o = true ↔ (mentions o (events (takesOf opts) cli)).getLast?.map Prod.fst = some (neg o.name) := by
    unfold given
    rw [lastMention_mentions, hrev]
    simp
  cases hl : (mentions o (events (takesOf opts) cli)).getLast? with
  | some e =>
    have he := List.mem_of_getLast? hl
    have hskip : given opts cli o = true := by
      have hen := List.mem_filter.1 he
      have : e.1 = o.name ∨ e.1 = neg o.name := by simpa using hen.2
      rcases this with h | h
      · rw [hl] at hon; simp [h] at hon
      · rw [hgv, hl]; simp [h]
    rw [if_pos (.inl hskip), List.append_nil, hl]
    rfl
  | none =>
    have hnil : mentions o (events (takesOf opts) cli) = [] := List.getLast?_eq_none_iff.1 hl
    have hns : ¬ (given opts cli o = true ∨ dashes (neg o.name) ∈ cli) := by
      rintro (h | h)
      · rw [hgv, hl] at h; simp at h
      · obtain ⟨v, hv⟩ := hraw.1 h
        have : (neg o.name, v) ∈ mentions o (events (takesOf opts) cli) := List.mem_filter.2 ⟨hv, by simp⟩
        rw [hnil] at this; simp at this
    rw [if_neg hns, hnil, List.nil_append]
    unfold added
    cases hv : cfg.get? o.name with
    | none => rfl
    | some v =>
      obtain ⟨b, hb⟩ := hc.switches o ho ht v hv
      dsimp only
      rw [(events_switch hd ho ht hb).1]
      simp only [List.getLast?_singleton, Option.map_some, Option.bind_some, hb, Option.map_none, Option.none_or, Option.some.injEq]
      cases b with
      | true => simp
      | false => simp [Ne.symm (hd.noneg o ho o ho)]

/-- C40 (options with values): if the command line mentions the option then its values count and the configured ones are
not added; otherwise the configured ones count. -/
theorem C40_values (ht : o.takes = true) (hrev : o.reversed = false) :
    ((∃ e ∈ events (takesOf opts) cli, e.1 = o.name ∨ e.1 = neg o.name) →
      values opts (layered opts cfg order cli) o = values opts cli o) ∧
    ((¬ ∃ e ∈ events (takesOf opts) cli, e.1 = o.name ∨ e.1 = neg o.name) →
      values opts (layered opts cfg order cli) o = (((cfg.get? o.name).map valueArgs).getD []).map some) := by
  have hm := layered_mentions hd hc ho hcm hp
  have hgv : given opts cli o = true ↔ (mentions o (events (takesOf opts) cli)).getLast?.map Prod.fst = some o.name := by
    unfold given
    rw [lastMention_mentions, hrev]
    simp
  constructor
  · rintro ⟨e0, he0, hn0⟩
    have hne : mentions o (events (takesOf opts) cli) ≠ [] := by
      intro hnil
      have : e0 ∈ mentions o (events (takesOf opts) cli) := List.mem_filter.2 ⟨he0, by simpa using hn0⟩
      rw [hnil] at this; simp at this
    obtain ⟨e, hl⟩ := Option.ne_none_iff_exists'.1 (fun h => hne (List.getLast?_eq_none_iff.1 h))
    have he := List.mem_of_getLast? hl
    have hskip : given opts cli o = true ∨ dashes (neg o.name) ∈ cli := by
      have hen := List.mem_filter.1 he
      have : e.1 = o.name ∨ e.1 = neg o.name := by simpa using hen.2
      rcases this with h | h
      · left; rw [hgv, hl]; simp [h]
      · right
        rw [hraw]
        exact ⟨e.2, by rw [← h]; exact hen.1⟩
    rw [if_pos hskip, List.append_nil] at hm
    rw [values_mentions, values_mentions, hm]
  · intro hno
    have hnil : mentions o (events (takesOf opts) cli) = [] := by
      unfold mentions
      rw [List.filter_eq_nil_iff]
      intro e he hx
      exact hno ⟨e, he, by simpa using hx⟩
    have hns : ¬ (given opts cli o = true ∨ dashes (neg o.name) ∈ cli) := by
      rintro (h | h)
      · rw [hgv, hnil] at h; simp at h
      · obtain ⟨v, hv⟩ := hraw.1 h
        exact hno ⟨_, hv, .inr rfl⟩
    rw [if_neg hns, hnil, List.nil_append] at hm
    rw [values_mentions, hm]
    unfold added
    cases hv : cfg.get? o.name with
    | none => rfl
    | some v =>
      have hb := hc.values o ho ht v hv
      dsimp only
      rw [pushes_value hd hb, (events_pairs hd ho ht _).1, ← List.map_reverse (f := fun v => (o.name, some v))]
      have hne : o.name ≠ neg o.name := hd.noneg o ho o ho
      have h1 : ∀ l : List Str, ((l.map fun v => (o.name, some v)).takeWhile fun e => e.1 ≠ neg o.name) =
          l.map fun v => (o.name, some v) := by
        intro l
        induction l with
        | nil => rfl
        | cons x l ih => rw [List.map_cons, List.takeWhile_cons, if_pos (by simpa using hne), ih]
      have h2 : ∀ l : List Str, ((l.map fun v => (o.name, some v)).filter fun e => e.1 = o.name) =
          l.map fun v => (o.name, some v) := by
        intro l
        rw [List.filter_eq_self]
        intro e he
        obtain ⟨x, _, rfl⟩ := List.mem_map.1 he
        simp
      rw [h1, h2]
      simp [List.map_reverse, Function.comp_def]

end cli

/-- C40: `--name=value` and, for options that take values, `--name value` mean the same: the option has that value, and what
follows is read on. -/
theorem C40_equals (takes : Str → Bool) (n x : Str) (rest : List Str) (hn : n ≠ []) (he : '=' ∉ n) (ht : takes n = true) :
    events takes (dashes (n ++ '=' :: x) :: rest) = (n, some x) :: events takes rest ∧
    events takes (dashes n :: x :: rest) = (n, some x) :: events takes rest := by
  have hne : ∀ c ∈ n, decide (c ≠ '=') = true := by
    intro c hc
    simp only [ne_eq, decide_not, Bool.not_eq_true', decide_eq_false_iff_not]
    rintro rfl
    exact he hc
  have h1 : longOf (dashes (n ++ '=' :: x)) = some (n, some x) := by
    have hx : n ++ '=' :: x ≠ [] := by simp
    simp only [longOf, dashes, if_neg hx]
    rw [if_pos (by simp), List.takeWhile_append_of_pos hne, List.dropWhile_append_of_pos hne]
    simp
  have h2 : longOf (dashes n) = some (n, none) := by
    simp only [longOf, dashes, if_neg hn]
    rw [if_neg he]
  constructor
  · cases rest with
    | nil => simp [events, h1]
    | cons b rest => simp [events, h1]
  · simp [events, h2, ht]

/-- C40: of a switch, `--name` at the end of a command line switches it on, and `--no-name` off. -/
theorem C40_spelled {opts : List Opt} (hd : Declared opts) {o : Opt} (ho : o ∈ opts) (args : List Str)
    (hc : complete (takesOf opts) args = true) :
    switch opts (args ++ ["--".toList ++ o.name]) o = some true ∧
    switch opts (args ++ ["--no-".toList ++ o.name]) o = some false := by
  obtain ⟨h1, h2⟩ := hd.plain o ho
  have l1 : longOf ("--".toList ++ o.name) = some (o.name, none) := longOf_dashes h1 h2
  have l2 : longOf ("--no-".toList ++ o.name) = some ("no-".toList ++ o.name, none) :=
    longOf_dashes (n := "no-".toList ++ o.name) (by simp) (by simp [h2])
  unfold switch lastMention
  rw [events_append _ _ _ hc, events_append _ _ _ hc]
  simp only [events, l1, l2]
  constructor
  · simp
  · have : ("no-".toList ++ o.name) ≠ o.name := by
      intro h
      have := congrArg List.length h
      simp at this
      omega
    have hn : neg o.name = "no-".toList ++ o.name := rfl
    simp only [hn, List.reverse_append, List.reverse_cons, List.reverse_nil, List.nil_append, List.cons_append, List.find?_cons, decide_true,
      Bool.or_true, Option.map_some, decide_eq_false this]

/-- C40: entries of tables are passed on as `key=value`, the value being the text itself, "true" or "false", or the number as written. -/
theorem C40_table_entries (name key s t : Str) (i : Int) (z : Bool) :
    tableArgs name (key, .str s) = [dashes name, key ++ '=' :: s] ∧
    tableArgs name (key, .bool true) = [dashes name, key ++ ['=', 't', 'r', 'u', 'e']] ∧
    tableArgs name (key, .bool false) = [dashes name, key ++ ['=', 'f', 'a', 'l', 's', 'e']] ∧
    tableArgs name (key, .int i t) = [dashes name, key ++ '=' :: t] ∧
    tableArgs name (key, .float z t) = [dashes name, key ++ '=' :: t] := ⟨rfl, rfl, rfl, rfl, rfl⟩


/-- the switch `scripts`, declared with `long = "no-scripts"` -/
def scriptsOpt : Opt := ⟨['s', 'c'], false, true⟩

/-- C40 is false of the code for switches declared with `--no-name`: `--scripts` on the command line is overridden by
`scripts false` in the configuration. -/
theorem C40_reversed_fails : ∃ (cfg : IMap Str CVal) (cli : List Str), Declared [scriptsOpt] ∧ Typed [scriptsOpt] cfg ∧
    switch [scriptsOpt] cli scriptsOpt = some true ∧
    switch [scriptsOpt] (layered [scriptsOpt] cfg [scriptsOpt] cli) scriptsOpt = some false := by
  refine ⟨[(['s', 'c'], .bool false)], [dashes ['s', 'c']], ⟨by decide, by decide, by decide⟩, ⟨?_, ?_, ?_⟩, by decide, by decide⟩
  · intro o ho _ v hv
    simp only [List.mem_singleton] at ho
    subst ho
    cases hv
    exact ⟨false, rfl⟩
  · intro o ho ht
    simp only [List.mem_singleton] at ho
    subst ho
    cases ht
  · intro o ho ht
    simp only [List.mem_singleton] at ho
    subst ho
    cases ht

/-- the option `retries`, with a value -/
def retriesOpt : Opt := ⟨['r', 'e'], true, false⟩

/-- C40 is false of the code for numbers (and for words like "on") in the configuration of options with values: they are
taken for booleans, and the option is passed without its value. -/
theorem C40_number_fails (i : Int) (t : Str) (h : i ≠ 0) :
    layered [retriesOpt] [(retriesOpt.name, .int i t)] [retriesOpt] [] = [dashes retriesOpt.name] ∧
    values [retriesOpt] (layered [retriesOpt] [(retriesOpt.name, .int i t)] [retriesOpt] []) retriesOpt = [none] := by
  have : layered [retriesOpt] [(retriesOpt.name, .int i t)] [retriesOpt] [] = [dashes retriesOpt.name] := by
    unfold layered
    rw [List.foldl_cons, List.foldl_nil, layerOne, if_neg (by decide), if_neg (by decide)]
    have hg : IMap.get? [(retriesOpt.name, CVal.int i t)] retriesOpt.name = some (.int i t) := by simp [IMap.get?]
    rw [hg]
    dsimp only
    have : asBool (.int i t) = some true := by simp [asBool, h]
    simp only [pushes, this]
    rfl
  rw [this]
  exact ⟨rfl, by decide⟩

/-- the hypotheses are met: two options, both configured, one of them given -/
example : let opts := [retriesOpt, ⟨['l', 'o'], false, false⟩]
    let cfg : IMap Str CVal := [(['r', 'e'], .str ['9', '9']), (['l', 'o'], .bool true)]
    layered opts cfg opts [dashes (neg ['l', 'o']), ['x']] = [dashes (neg ['l', 'o']), ['x'], dashes ['r', 'e'], ['9', '9']] := by
  decide

/-- the hypotheses of the theorems above are met by that case -/
example : let opts := [retriesOpt, ⟨['l', 'o'], false, false⟩]
    let cfg : IMap Str CVal := [(['r', 'e'], .str ['9', '9']), (['l', 'o'], .bool true)]
    let cli := [dashes (neg ['l', 'o']), ['x']]
    Declared opts ∧ Typed opts cfg ∧ complete (takesOf opts) cli = true ∧
    (dashes (neg ['l', 'o']) ∈ cli ↔ ∃ v, (neg ['l', 'o'], v) ∈ events (takesOf opts) cli) ∧
    switch opts cli ⟨['l', 'o'], false, false⟩ = some false := by
  refine ⟨⟨by decide, by decide, by decide⟩, ⟨?_, ?_, ?_⟩, by decide, ?_, by decide⟩
  · intro o ho ht v hv
    simp only [List.mem_cons, List.not_mem_nil, or_false] at ho
    rcases ho with rfl | rfl
    · cases ht
    · cases hv; exact ⟨true, rfl⟩
  · intro o ho ht v hv
    simp only [List.mem_cons, List.not_mem_nil, or_false] at ho
    rcases ho with rfl | rfl
    · cases hv; decide
    · cases ht
  · intro o ho ht v hv
    simp only [List.mem_cons, List.not_mem_nil, or_false] at ho
    rcases ho with rfl | rfl
    · cases hv; decide
    · cases ht
  · constructor
    · intro _; exact ⟨none, by decide⟩
    · intro _; decide

end Config
end Oro
