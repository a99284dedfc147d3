import Verif.Lemmas.PyRepr

/-!
# Debug views: lines and what they tell
-/

namespace RUSure.Debug

/-! ## Lines -/

theorem intercalate_cons (l : Text) {ls : List Text} (h : ls ≠ []) :
    List.intercalate ['\n'] (l :: ls) = l ++ '\n' :: List.intercalate ['\n'] ls := by
  cases ls with
  | nil => exact (h rfl).elim
  | cons k ls => simp [List.intercalate, List.intersperse]

theorem break_inj {a b r s : Text} (ha : '\n' ∉ a) (hb : '\n' ∉ b) (h : a ++ '\n' :: r = b ++ '\n' :: s) :
    a = b ∧ r = s := by
  induction a generalizing b with
  | nil =>
    cases b with
    | nil => exact ⟨rfl, (List.cons.inj h).2⟩
    | cons c b => exact (hb ((List.cons.inj h).1 ▸ List.mem_cons_self ..)).elim
  | cons c a ih =>
    cases b with
    | nil => exact (ha ((List.cons.inj h).1 ▸ List.mem_cons_self ..)).elim
    | cons c' b =>
      replace h := List.cons.inj h
      obtain ⟨rfl, h⟩ := h
      replace h := ih (fun m => ha (List.mem_cons_of_mem _ m)) (fun m => hb (List.mem_cons_of_mem _ m)) h
      obtain ⟨rfl, h⟩ := h
      exact ⟨rfl, h⟩

/-- Lines that are not empty can be told from their text. -/
theorem intercalate_inj {ls ks : List Text} (h1 : ∀ l ∈ ls, '\n' ∉ l ∧ l ≠ [])
    (h2 : ∀ l ∈ ks, '\n' ∉ l ∧ l ≠ [])
    (h : List.intercalate ['\n'] ls = List.intercalate ['\n'] ks) : ls = ks := by
  have single : ∀ l : Text, List.intercalate ['\n'] [l] = l := fun l => by simp [List.intercalate]
  have start : ∀ (l : Text) (ls : List Text), l ≠ [] → List.intercalate ['\n'] (l :: ls) ≠ [] := by
    intro l ls hl
    cases ls with
    | nil => rwa [single]
    | cons k ls =>
      rw [intercalate_cons _ (List.cons_ne_nil k ls)]
      simp
  induction ls generalizing ks with
  | nil =>
    cases ks with
    | nil => rfl
    | cons k ks => exact (start k ks (h2 k (List.mem_cons_self ..)).2 h.symm).elim
  | cons l ls ih =>
    cases ks with
    | nil => exact (start l ls (h1 l (List.mem_cons_self ..)).2 h).elim
    | cons k ks =>
      have nl := (h1 l (List.mem_cons_self ..)).1
      have nk := (h2 k (List.mem_cons_self ..)).1
      by_cases e1 : ls = []
      · subst e1
        rw [single] at h
        by_cases e2 : ks = []
        · subst e2
          rw [single] at h
          rw [h]
        · rw [intercalate_cons _ e2] at h
          exact (nl (h ▸ by simp)).elim
      · rw [intercalate_cons _ e1] at h
        by_cases e2 : ks = []
        · subst e2
          rw [single] at h
          exact (nk (h ▸ by simp)).elim
        · rw [intercalate_cons _ e2] at h
          replace h := break_inj nl nk h
          obtain ⟨rfl, h⟩ := h
          rw [ih (fun x hx => h1 x (List.mem_cons_of_mem _ hx)) (fun x hx => h2 x (List.mem_cons_of_mem _ hx)) h]

section
variable {M : Type} (printable : Char → Bool) (names : M → Option Text)

/-! ## The nodes -/

mutual
theorem debugNode_text : ∀ n : Node M, (debugNode printable names n).1 = renderText n
  | .deco _ => by rw [debugNode, renderText]
  | .tok _ _ => by rw [debugNode, renderText]
  | .group cs _ => by rw [debugNode, renderText, debugNodes_text cs]
  | .rstart => by rw [debugNode, renderText]
  | .rend => by rw [debugNode, renderText]
  | .exit => by rw [debugNode, renderText]
theorem debugNodes_text : ∀ ns : List (Node M), (debugNodes printable names ns).1 = renderTextL ns
  | [] => by rw [debugNodes, renderTextL]
  | n :: ns => by rw [debugNodes, renderTextL, debugNode_text n, debugNodes_text ns]
end

theorem shown_eq (t : Text) : shown printable t = summarize printable t := by
  unfold shown summarize
  by_cases h : t.length ≤ 80
  · rw [if_pos h, if_neg (by omega)]
  · rw [if_neg h, if_pos (by omega)]
    rw [show "...".toList = ['.', '.', '.'] from by decide +kernel]

theorem header_eq (k : Text) (m : Option Text) : k ++ bracket m ++ ": ".toList = header k m := by
  rw [show ": ".toList = [':', ' '] from by decide +kernel]
  cases m <;> simp [bracket, header]

/-- What the model says about a node. -/
def said : Node M → Text
  | .deco t => "DEC: ".toList ++ summarize printable t
  | .tok t m => header "TOK".toList (names m) ++ summarize printable t
  | .group cs m => header "GROUP".toList (names m) ++ summarize printable (renderTextL cs)
  | .rstart => "RegionStartNode()".toList
  | .rend => "RegionEndNode()".toList
  | .exit => "EarlyExitNode()".toList

theorem line_eq_said : ∀ n : Node M, line printable names n = said printable names n
  | .deco t => congrArg ("DEC: ".toList ++ ·) (shown_eq printable t)
  | .tok t m => congrArg₂ (· ++ ·) (header_eq "TOK".toList (names m)) (shown_eq printable t)
  | .group cs m => congrArg₂ (· ++ ·) (header_eq "GROUP".toList (names m)) (shown_eq printable (renderTextL cs))
  | .rstart => rfl
  | .rend => rfl
  | .exit => rfl

/-- A row as a line. -/
def rowText (r : Nat × Node M) : Text := List.replicate (2 * r.1) ' ' ++ said printable names r.2

theorem rowText_shift (k d : Nat) (n : Node M) :
    rowText printable names (d + k, n) = List.replicate (2 * k) ' ' ++ rowText printable names (d, n) := by
  unfold rowText
  rw [← List.append_assoc, List.replicate_append_replicate]
  simp only
  rw [show 2 * k + 2 * d = 2 * (d + k) by omega]

theorem rows_shift (ns : List (Node M)) (d : Nat) :
    rows (d + 1) ns = (rows d ns).map fun r => (r.1 + 1, r.2) := by
  match ns with
  | [] => simp [rows]
  | n :: ns =>
    rw [rows.eq_def (d + 1), rows.eq_def d]
    simp only [List.map_append, List.map_cons]
    rw [rows_shift ns d]
    congr 2
    cases n with
    | group cs m => exact rows_shift cs (d + 1)
    | _ => rfl

theorem rows_single (n : Node M) (h : ∀ cs m, n ≠ .group cs m) : rows 0 [n] = [(0, n)] := by
  cases n with
  | group cs m => exact (h cs m rfl).elim
  | _ => simp [rows]

mutual
theorem debugNode_lines : ∀ n : Node M,
    (debugNode printable names n).2 = (rows 0 [n]).map (rowText printable names)
  | .deco t => by rw [debugNode, rows_single _ nofun]; rfl
  | .tok t m => by rw [debugNode, rows_single _ nofun]; rfl
  | .rstart => by rw [debugNode, rows_single _ nofun]; rfl
  | .rend => by rw [debugNode, rows_single _ nofun]; rfl
  | .exit => by rw [debugNode, rows_single _ nofun]; rfl
  | .group cs m => by
    rw [debugNode, rows]
    simp only [rows, List.append_nil, List.map_cons, List.cons.injEq]
    refine ⟨by rw [debugNodes_text]; rfl, ?_⟩
    rw [debugNodes_lines cs, List.map_map, rows_shift cs 0, List.map_map]
    refine List.map_congr_left fun r _ => ?_
    exact (rowText_shift printable names 1 r.1 r.2).symm
theorem debugNodes_lines : ∀ ns : List (Node M),
    (debugNodes printable names ns).2 = (rows 0 ns).map (rowText printable names)
  | [] => by simp [debugNodes, rows]
  | n :: ns => by
    rw [debugNodes, debugNode_lines n, debugNodes_lines ns, ← List.map_append]
    rw [rows.eq_def 0 (n :: ns), rows.eq_def 0 [n]]
    simp [rows]
end

/-! ## What the lines tell -/

/-- The part of a node that a line tells. -/
def label : Node M → Node M
  | .group _ m => .group [] m
  | n => n

theorem header_end {k k' : Text} {m m' : Option Text} {r s : Text} (hk : '(' ∉ k ∧ ':' ∉ k)
    (hk' : '(' ∉ k' ∧ ':' ∉ k') (hm : ∀ t, m = some t → ')' ∉ t) (hm' : ∀ t, m' = some t → ')' ∉ t)
    (h : header k m ++ r = header k' m' ++ s) : k = k' ∧ m = m' ∧ r = s := by
  have cut : ∀ (c : Char) (a b x y : Text), c ∉ a → c ∉ b → a ++ c :: x = b ++ c :: y → a = b ∧ x = y := by
    intro c a
    induction a with
    | nil =>
      intro b x y _ hb h
      cases b with
      | nil => exact ⟨rfl, (List.cons.inj h).2⟩
      | cons d b => exact (hb ((List.cons.inj h).1 ▸ List.mem_cons_self ..)).elim
    | cons d a ih =>
      intro b x y ha hb h
      cases b with
      | nil => exact (ha ((List.cons.inj h).1 ▸ List.mem_cons_self ..)).elim
      | cons d' b =>
        replace h := List.cons.inj h
        obtain ⟨rfl, h⟩ := h
        replace h := ih b x y (fun m => ha (List.mem_cons_of_mem _ m))
          (fun m => hb (List.mem_cons_of_mem _ m)) h
        obtain ⟨rfl, h⟩ := h
        exact ⟨rfl, h⟩
  have clash : ∀ (a b x y : Text), '(' ∉ b → ':' ∉ a → a ++ ':' :: x = b ++ '(' :: y → '(' ∈ a ∨ ':' ∈ b := by
    intro a
    induction a with
    | nil =>
      intro b x y _ _ h
      cases b with
      | nil => exact absurd (List.cons.inj h).1 (by decide)
      | cons d b => exact .inr ((List.cons.inj h).1 ▸ List.mem_cons_self ..)
    | cons d a ih =>
      intro b x y hb ha h
      cases b with
      | nil => exact .inl ((List.cons.inj h).1 ▸ List.mem_cons_self ..)
      | cons d' b =>
        rcases ih b x y (fun m => hb (List.mem_cons_of_mem _ m)) (fun m => ha (List.mem_cons_of_mem _ m))
          (List.cons.inj h).2 with h | h
        · exact .inl (List.mem_cons_of_mem _ h)
        · exact .inr (List.mem_cons_of_mem _ h)
  cases m with
  | none =>
    cases m' with
    | none =>
      simp only [header, List.append_assoc, List.cons_append, List.nil_append] at h
      replace h := cut ':' _ _ _ _ hk.2 hk'.2 h
      obtain ⟨rfl, h⟩ := h
      exact ⟨rfl, rfl, (List.cons.inj h).2⟩
    | some t' =>
      simp only [header, List.append_assoc, List.cons_append, List.nil_append] at h
      rcases clash _ _ _ _ hk'.1 hk.2 h with h | h
      · exact (hk.1 h).elim
      · exact (hk'.2 h).elim
  | some t =>
    cases m' with
    | none =>
      simp only [header, List.append_assoc, List.cons_append, List.nil_append] at h
      rcases clash _ _ _ _ hk.1 hk'.2 h.symm with h | h
      · exact (hk'.1 h).elim
      · exact (hk.2 h).elim
    | some t' =>
      simp only [header, List.append_assoc, List.cons_append, List.nil_append] at h
      replace h := cut '(' _ _ _ _ hk.1 hk'.1 h
      obtain ⟨rfl, h⟩ := h
      replace h := cut ')' _ _ _ _ (hm _ rfl) (hm' _ rfl) h
      obtain ⟨rfl, h⟩ := h
      exact ⟨rfl, rfl, (List.cons.inj (List.cons.inj h).2).2⟩

theorem header_head (k : Text) (m : Option Text) (r : Text) (c : Char) (x : Text) (h : k = c :: x) :
    ∃ y, header k m ++ r = c :: y := by
  subst h
  cases m <;> exact ⟨_, rfl⟩

theorem line_head (n : Node M) : ∃ c r, said printable names n = c :: r ∧ c ≠ ' ' ∧ c ≠ '\n' := by
  cases n with
  | deco t => exact ⟨'D', _, rfl, by decide, by decide⟩
  | tok t m =>
    obtain ⟨y, h⟩ := header_head "TOK".toList (names m) (summarize printable t) 'T' ['O', 'K'] (by decide +kernel)
    exact ⟨'T', y, h, by decide, by decide⟩
  | group cs m =>
    obtain ⟨y, h⟩ := header_head "GROUP".toList (names m) (summarize printable (renderTextL cs)) 'G'
      ['R', 'O', 'U', 'P'] (by decide +kernel)
    exact ⟨'G', y, h, by decide, by decide⟩
  | rstart => exact ⟨'R', _, rfl, by decide, by decide⟩
  | rend => exact ⟨'R', _, rfl, by decide, by decide⟩
  | exit => exact ⟨'E', _, rfl, by decide, by decide⟩

theorem line_newline (hn : ∀ m t, names m = some t → '\n' ∉ t) (n : Node M) :
    '\n' ∉ said printable names n := by
  have hh : ∀ (k : Text) (m : M), '\n' ∉ k → '\n' ∉ header k (names m) := by
    intro k m hk
    cases e : names m with
    | none => simp [header, hk]
    | some t => simp [header, hk, hn m t e]
  cases n with
  | deco t =>
    exact fun hm => (List.mem_append.1 hm).elim (by decide +kernel : '\n' ∉ "DEC: ".toList)
      (summarize_newline printable t)
  | tok t m =>
    exact fun hm => (List.mem_append.1 hm).elim (hh _ m (by decide +kernel)) (summarize_newline printable t)
  | group cs m =>
    exact fun hm => (List.mem_append.1 hm).elim (hh _ m (by decide +kernel)) (summarize_newline printable _)
  | rstart => exact (by decide +kernel : '\n' ∉ "RegionStartNode()".toList)
  | rend => exact (by decide +kernel : '\n' ∉ "RegionEndNode()".toList)
  | exit => exact (by decide +kernel : '\n' ∉ "EarlyExitNode()".toList)

/-- A short text. -/
def ShortNode : Node M → Prop
  | .deco t => t.length ≤ 80
  | .tok t _ => t.length ≤ 80
  | _ => True

theorem fixed_ne : "RegionStartNode()".toList ≠ "RegionEndNode()".toList ∧
    "RegionStartNode()".toList ≠ "EarlyExitNode()".toList ∧
    "RegionEndNode()".toList ≠ "EarlyExitNode()".toList := by decide +kernel

theorem line_label (hi : Function.Injective names) (hn : ∀ m t, names m = some t → ')' ∉ t)
    {n n' : Node M} (h1 : ShortNode n) (h2 : ShortNode n')
    (h : said printable names n = said printable names n') : label n = label n' := by
  have dec : ∀ t : Text, "DEC: ".toList ++ t = header "DEC".toList none ++ t := fun t => by
    rw [show header "DEC".toList none = "DEC: ".toList from by decide +kernel]
  have kd : '(' ∉ "DEC".toList ∧ ':' ∉ "DEC".toList := by decide +kernel
  have kt : '(' ∉ "TOK".toList ∧ ':' ∉ "TOK".toList := by decide +kernel
  have kg : '(' ∉ "GROUP".toList ∧ ':' ∉ "GROUP".toList := by decide +kernel
  have first : ∀ {a b : Node M} {c d : Char} {r s : Text}, said printable names a = c :: r →
      said printable names b = d :: s → said printable names a = said printable names b → c = d :=
    fun e1 e2 e => (List.cons.inj (e1.symm.trans (e.trans e2))).1
  have hT := fun (t : Text) m => header_head "TOK".toList (names m) (summarize printable t) 'T' ['O', 'K'] (by decide +kernel)
  have hG := fun (cs : List (Node M)) m => header_head "GROUP".toList (names m) (summarize printable (renderTextL cs)) 'G'
      ['R', 'O', 'U', 'P'] (by decide +kernel)
  cases n with
  | deco t =>
    cases n' with
    | deco t' =>
      replace h := (dec _).symm.trans (h.trans (dec _))
      rw [summarize_inj printable h1 h2 (header_end kd kd (fun _ h => by cases h) (fun _ h => by cases h) h).2.2]
    | tok t' m =>
      obtain ⟨y, e⟩ := hT t' m
      exact absurd (first (a := .deco t) (b := .tok t' m) (c := 'D') rfl e h) (by decide)
    | group cs m =>
      obtain ⟨y, e⟩ := hG cs m
      exact absurd (first (a := .deco t) (b := .group cs m) (c := 'D') rfl e h) (by decide)
    | rstart => exact absurd (first (a := .deco t) (b := .rstart) (c := 'D') (d := 'R') rfl rfl h) (by decide)
    | rend => exact absurd (first (a := .deco t) (b := .rend) (c := 'D') (d := 'R') rfl rfl h) (by decide)
    | exit => exact absurd (first (a := .deco t) (b := .exit) (c := 'D') (d := 'E') rfl rfl h) (by decide)
  | tok t m =>
    obtain ⟨y, e⟩ := hT t m
    cases n' with
    | deco t' => exact absurd (first (a := .tok t m) (b := .deco t') (d := 'D') e rfl h) (by decide)
    | tok t' m' =>
      obtain ⟨-, e1, e2⟩ := header_end (r := summarize printable t) (s := summarize printable t') kt kt (hn m) (hn m') h
      rw [summarize_inj printable h1 h2 e2, hi e1]
    | group cs m' =>
      obtain ⟨y', e'⟩ := hG cs m'
      exact absurd (first (a := .tok t m) (b := .group cs m') e e' h) (by decide)
    | rstart => exact absurd (first (a := .tok t m) (b := .rstart) (d := 'R') e rfl h) (by decide)
    | rend => exact absurd (first (a := .tok t m) (b := .rend) (d := 'R') e rfl h) (by decide)
    | exit => exact absurd (first (a := .tok t m) (b := .exit) (d := 'E') e rfl h) (by decide)
  | group cs m =>
    obtain ⟨y, e⟩ := hG cs m
    cases n' with
    | deco t' => exact absurd (first (a := .group cs m) (b := .deco t') (d := 'D') e rfl h) (by decide)
    | tok t' m' =>
      obtain ⟨y', e'⟩ := hT t' m'
      exact absurd (first (a := .group cs m) (b := .tok t' m') e e' h) (by decide)
    | group cs' m' =>
      obtain ⟨-, e1, -⟩ := header_end (r := summarize printable (renderTextL cs))
        (s := summarize printable (renderTextL cs')) kg kg (hn m) (hn m') h
      rw [label, label, hi e1]
    | rstart => exact absurd (first (a := .group cs m) (b := .rstart) (d := 'R') e rfl h) (by decide)
    | rend => exact absurd (first (a := .group cs m) (b := .rend) (d := 'R') e rfl h) (by decide)
    | exit => exact absurd (first (a := .group cs m) (b := .exit) (d := 'E') e rfl h) (by decide)
  | rstart =>
    cases n' with
    | deco t' => exact absurd (first (a := .rstart) (b := .deco t') (c := 'R') (d := 'D') rfl rfl h) (by decide)
    | tok t' m' =>
      obtain ⟨y', e'⟩ := hT t' m'
      exact absurd (first (a := .rstart) (b := .tok t' m') (c := 'R') rfl e' h) (by decide)
    | group cs' m' =>
      obtain ⟨y', e'⟩ := hG cs' m'
      exact absurd (first (a := .rstart) (b := .group cs' m') (c := 'R') rfl e' h) (by decide)
    | rstart => rfl
    | rend => exact absurd h fixed_ne.1
    | exit => exact absurd h fixed_ne.2.1
  | rend =>
    cases n' with
    | deco t' => exact absurd (first (a := .rend) (b := .deco t') (c := 'R') (d := 'D') rfl rfl h) (by decide)
    | tok t' m' =>
      obtain ⟨y', e'⟩ := hT t' m'
      exact absurd (first (a := .rend) (b := .tok t' m') (c := 'R') rfl e' h) (by decide)
    | group cs' m' =>
      obtain ⟨y', e'⟩ := hG cs' m'
      exact absurd (first (a := .rend) (b := .group cs' m') (c := 'R') rfl e' h) (by decide)
    | rstart => exact absurd h (fixed_ne.1.symm)
    | rend => rfl
    | exit => exact absurd h fixed_ne.2.2
  | exit =>
    cases n' with
    | deco t' => exact absurd (first (a := .exit) (b := .deco t') (c := 'E') (d := 'D') rfl rfl h) (by decide)
    | tok t' m' =>
      obtain ⟨y', e'⟩ := hT t' m'
      exact absurd (first (a := .exit) (b := .tok t' m') (c := 'E') rfl e' h) (by decide)
    | group cs' m' =>
      obtain ⟨y', e'⟩ := hG cs' m'
      exact absurd (first (a := .exit) (b := .group cs' m') (c := 'E') rfl e' h) (by decide)
    | rstart => exact absurd h (fixed_ne.2.1.symm)
    | rend => exact absurd h (fixed_ne.2.2.symm)
    | exit => rfl

omit printable names in
theorem indent_inj {a b : Nat} {c d : Char} {r s : Text} (hc : c ≠ ' ') (hd : d ≠ ' ')
    (h : List.replicate a ' ' ++ c :: r = List.replicate b ' ' ++ d :: s) : a = b ∧ c :: r = d :: s := by
  induction a generalizing b with
  | zero =>
    cases b with
    | zero => exact ⟨rfl, h⟩
    | succ b =>
      rw [List.replicate_succ] at h
      exact (hc (List.cons.inj h).1).elim
  | succ a ih =>
    cases b with
    | zero =>
      rw [List.replicate_succ] at h
      exact (hd (List.cons.inj h).1.symm).elim
    | succ b =>
      rw [List.replicate_succ, List.replicate_succ] at h
      obtain ⟨rfl, e⟩ := ih (List.cons.inj h).2
      exact ⟨rfl, e⟩

theorem row_inj (hi : Function.Injective names) (hn : ∀ m t, names m = some t → ')' ∉ t)
    {x y : Nat × Node M} (h1 : ShortNode x.2) (h2 : ShortNode y.2)
    (h : rowText printable names x = rowText printable names y) : x.1 = y.1 ∧ label x.2 = label y.2 := by
  obtain ⟨c, r, e1, c1, -⟩ := line_head printable names x.2
  obtain ⟨d, s, e2, c2, -⟩ := line_head printable names y.2
  unfold rowText at h
  rw [e1, e2] at h
  obtain ⟨ha, hb⟩ := indent_inj c1 c2 h
  exact ⟨by omega, line_label printable names hi hn h1 h2 (by rw [e1, e2, hb])⟩

omit printable names in
/-- Rows determine the nodes. -/
theorem rows_inj (ns ns' : List (Node M)) (d : Nat) (r r' : List (Nat × Node M))
    (hr : ∀ x, r.head? = some x → x.1 < d) (hr' : ∀ x, r'.head? = some x → x.1 < d)
    (h : (rows d ns ++ r).map (fun x => (x.1, label x.2)) = (rows d ns' ++ r').map fun x => (x.1, label x.2)) :
    ns = ns' ∧ r.map (fun x => (x.1, label x.2)) = r'.map fun x => (x.1, label x.2) := by
  match ns with
  | [] =>
    cases ns' with
    | nil => exact ⟨rfl, by simpa [rows] using h⟩
    | cons n' ns' =>
      rw [rows.eq_def d (n' :: ns')] at h
      cases r with
      | nil => simp [rows] at h
      | cons x r =>
        simp only [rows, List.nil_append, List.cons_append, List.map_cons, List.cons.injEq, Prod.mk.injEq] at h
        have := hr x rfl
        omega
  | n :: ns =>
    cases ns' with
    | nil =>
      rw [rows.eq_def d (n :: ns)] at h
      cases r' with
      | nil => simp [rows] at h
      | cons x r' =>
        simp only [rows, List.nil_append, List.cons_append, List.map_cons, List.cons.injEq, Prod.mk.injEq] at h
        have := hr' x rfl
        omega
    | cons n' ns' =>
      rw [rows.eq_def d (n :: ns), rows.eq_def d (n' :: ns')] at h
      simp only [List.cons_append, List.map_cons, List.cons.injEq, Prod.mk.injEq, true_and] at h
      obtain ⟨hl, h⟩ := h
      have low : ∀ (ms : List (Node M)) (q : List (Nat × Node M)), (∀ x, q.head? = some x → x.1 < d) →
          ∀ x, (rows d ms ++ q).head? = some x → x.1 < d + 1 := by
        intro ms q hq x hx
        cases ms with
        | nil =>
          have := hq x (by simpa [rows] using hx)
          omega
        | cons m ms =>
          rw [rows.eq_def d (m :: ms)] at hx
          simp only [List.cons_append, List.head?_cons, Option.some.injEq] at hx
          rw [← hx]
          exact Nat.lt_succ_self d
      cases n with
      | group cs m =>
        cases n' with
        | group cs' m' =>
          simp only [label, Node.group.injEq, true_and] at hl
          subst hl
          simp only [List.append_assoc] at h
          replace h := rows_inj cs cs' (d + 1) _ _ (low ns r hr) (low ns' r' hr') h
          obtain ⟨rfl, h⟩ := h
          replace h := rows_inj ns ns' d r r' hr hr' h
          obtain ⟨rfl, h⟩ := h
          exact ⟨rfl, h⟩
        | _ => simp [label] at hl
      | deco t =>
        cases n' with
        | deco t' =>
          simp only [label, Node.deco.injEq] at hl
          subst hl
          replace h := rows_inj ns ns' d r r' hr hr' (by simpa using h)
          obtain ⟨rfl, h⟩ := h
          exact ⟨rfl, h⟩
        | _ => simp [label] at hl
      | tok t m =>
        cases n' with
        | tok t' m' =>
          simp only [label, Node.tok.injEq] at hl
          obtain ⟨rfl, rfl⟩ := hl
          replace h := rows_inj ns ns' d r r' hr hr' (by simpa using h)
          obtain ⟨rfl, h⟩ := h
          exact ⟨rfl, h⟩
        | _ => simp [label] at hl
      | rstart =>
        cases n' with
        | rstart =>
          replace h := rows_inj ns ns' d r r' hr hr' (by simpa using h)
          obtain ⟨rfl, h⟩ := h
          exact ⟨rfl, h⟩
        | _ => simp [label] at hl
      | rend =>
        cases n' with
        | rend =>
          replace h := rows_inj ns ns' d r r' hr hr' (by simpa using h)
          obtain ⟨rfl, h⟩ := h
          exact ⟨rfl, h⟩
        | _ => simp [label] at hl
      | exit =>
        cases n' with
        | exit =>
          replace h := rows_inj ns ns' d r r' hr hr' (by simpa using h)
          obtain ⟨rfl, h⟩ := h
          exact ⟨rfl, h⟩
        | _ => simp [label] at hl

end

end RUSure.Debug
