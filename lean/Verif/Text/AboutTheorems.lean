import Verif.Text.About

/-!
# What `--version` and `--about` print: theorems (C108)
-/

namespace Maike.Text.About

open Maike.Text.Template (Str)

/-- Everything can be put between quotation marks. -/
structure Info.Clean (i : Info) : Prop where
  buildId : About.Clean i.buildId
  startTime : About.Clean i.startTime
  buildHost : About.Clean i.buildHost
  commit : About.Clean i.commit
  tag : About.Clean i.tag
  authors : ∀ h ∈ i.copyright, About.Clean h.author
  description : About.Clean i.description
  license : About.Clean i.license

def segs (i : Info) : List Seg :=
  [⟨"BuildId".toList, i.buildId, i.buildId, 1⟩, ⟨"BuildStartTime".toList, i.startTime, i.startTime, 1⟩, ⟨"BuildHost".toList, i.buildHost, i.buildHost, 2⟩,
   ⟨"VcsRevisionId".toList, i.commit, i.commit, 1⟩, ⟨"VcsTag".toList, i.tag, i.tag, 2⟩,
   ⟨"Copyright".toList, join ['\\', 'n'] (i.copyright.map notice), join ['\n'] (i.copyright.map notice), 1⟩,
   ⟨"DescriptionShort".toList, i.description, i.description, 1⟩, ⟨"LegalBrief".toList, i.license, i.license, 1⟩]

def guard : Str := "#ifndef MAIKE_BIN_ABOUTIMPL_HPP\n#define MAIKE_BIN_ABOUTIMPL_HPP\n\n".toList

theorem isName_of (s : String) (h : (match s.toList with | [] => false | c :: r => Template.idStart c && r.all Template.idChar) = true) : Template.IsName s.toList := by
  cases e : s.toList with
  | nil => rw [e] at h; cases h
  | cons c r =>
    rw [e] at h
    simp only [Bool.and_eq_true, List.all_eq_true] at h
    exact ⟨c, r, rfl, h.1, h.2⟩

/-- Definitions, and what follows them. -/
def part (tail : Str) : List Seg → Str
  | [] => tail
  | g :: gs => "char const* Maike::Self::".toList ++ (g.name ++ (" = \"".toList ++ (g.text ++ '"' :: ';' :: '\n' :: (List.replicate g.pad '\n' ++ part tail gs))))

theorem part_cons (tail : Str) (g : Seg) (gs : List Seg) : part tail (g :: gs) =
    "char const* Maike::Self::".toList ++ (g.name ++ (" = \"".toList ++ (g.text ++ '"' :: ';' :: '\n' :: (List.replicate g.pad '\n' ++ part tail gs)))) := rfl

theorem part_nil (tail : Str) : part tail [] = tail := rfl

theorem body_part (gs : List Seg) : body gs = part "#endif\n".toList gs := by
  induction gs with
  | nil => rfl
  | cons g gs ih => rw [body_cons, ih]; rfl

section

variable {env : Str → Option Str}

theorem sub_text {t r s : Str} (ht : '$' ∉ t) (h : Template.substitute env r = some s) : Template.substitute env (t ++ r) = some (t ++ s) := by
  rw [Template.substitute_iff] at h ⊢
  induction t with
  | nil => exact h
  | cons c t ih =>
    simp only [List.mem_cons, not_or] at ht
    exact .char (Ne.symm ht.1) (ih ht.2)

theorem sub_name {n v r s : Str} (hn : Template.IsName n) (hv : env n = some v) (h : Template.substitute env r = some s) (hr : ∀ c r', r = c :: r' → Template.idChar c = false) :
    Template.substitute env ('$' :: n ++ r) = some (v ++ s) := by
  rw [Template.substitute_iff] at h ⊢
  exact .name hn hv hr h

theorem name_no_dollar {n : Str} (h : Template.IsName n) : '$' ∉ n := by
  obtain ⟨c, r, rfl, hc, hr⟩ := h
  simp only [List.mem_cons, not_or]
  exact ⟨Ne.symm (Template.idStart_ne hc).1, fun h => by have := hr _ h; revert this; decide⟩

/-- Definitions in which names stand for values. -/
theorem sub_part {gs : List (Seg × Str)} (hn : ∀ g ∈ gs, Template.IsName g.1.name ∧ Template.IsName g.2 ∧ env g.2 = some g.1.text) {tail tail' : Str}
    (h : Template.substitute env tail = some tail') :
    Template.substitute env (part tail (gs.map fun g => { g.1 with text := '$' :: g.2 })) = some (part tail' (gs.map (·.1))) := by
  induction gs with
  | nil => exact h
  | cons g gs ih =>
    obtain ⟨h1, h2, h3⟩ := hn g (by simp)
    have h' := ih fun x hx => hn x (by simp [hx])
    rw [List.map_cons, List.map_cons, part_cons, part_cons]
    refine sub_text (by decide +kernel) (sub_text (name_no_dollar h1) (sub_text (by decide +kernel) (sub_name h2 h3 ?_ ?_)))
    · exact sub_text (t := ['"', ';', '\n']) (by decide) (sub_text (by simp [List.mem_replicate]) h')
    · rintro c r e
      cases e
      decide

end

theorem header_eq (i : Info) : header i = some (guard ++ body (segs i)) := by
  have h1 : buildInfoTemplate = part [] [⟨"BuildId".toList, '$' :: "build_id".toList, [], 1⟩, ⟨"BuildStartTime".toList, '$' :: "start_time".toList, [], 1⟩,
      ⟨"BuildHost".toList, '$' :: "build_host".toList, [], 0⟩] := by
    rw [part_cons, part_cons, part_cons]
    decide +kernel
  have h2 : vcsInfoTemplate = part [] [⟨"VcsRevisionId".toList, '$' :: "commit".toList, [], 1⟩, ⟨"VcsTag".toList, '$' :: "tag".toList, [], 0⟩] := by decide +kernel
  have h3 : fileTemplate = guard ++ ('$' :: "build_info".toList ++ ("\n\n".toList ++ ('$' :: "vcs_info".toList ++ ("\n\n".toList ++
      part "#endif\n".toList [⟨"Copyright".toList, '$' :: "copyright".toList, [], 1⟩, ⟨"DescriptionShort".toList, '$' :: "description_short".toList, [], 1⟩,
        ⟨"LegalBrief".toList, '$' :: "legal_brief".toList, [], 1⟩])))) := by decide +kernel
  have g1 : Template.substitute (dict [("build_id", i.buildId), ("start_time", i.startTime), ("build_host", i.buildHost)]) buildInfoTemplate =
      some (part [] [⟨"BuildId".toList, i.buildId, [], 1⟩, ⟨"BuildStartTime".toList, i.startTime, [], 1⟩, ⟨"BuildHost".toList, i.buildHost, [], 0⟩]) := by
    rw [h1]
    refine sub_part (gs := [(⟨"BuildId".toList, i.buildId, [], 1⟩, "build_id".toList), (⟨"BuildStartTime".toList, i.startTime, [], 1⟩, "start_time".toList),
      (⟨"BuildHost".toList, i.buildHost, [], 0⟩, "build_host".toList)]) ?_ (tail := []) rfl
    intro g hg
    simp only [List.mem_cons, List.not_mem_nil, or_false] at hg
    rcases hg with rfl | rfl | rfl <;> exact ⟨isName_of _ (by decide +kernel), isName_of _ (by decide +kernel), by simp [dict]⟩
  have g2 : Template.substitute (dict [("commit", i.commit), ("tag", i.tag)]) vcsInfoTemplate =
      some (part [] [⟨"VcsRevisionId".toList, i.commit, [], 1⟩, ⟨"VcsTag".toList, i.tag, [], 0⟩]) := by
    rw [h2]
    refine sub_part (gs := [(⟨"VcsRevisionId".toList, i.commit, [], 1⟩, "commit".toList), (⟨"VcsTag".toList, i.tag, [], 0⟩, "tag".toList)]) ?_ (tail := []) rfl
    intro g hg
    simp only [List.mem_cons, List.not_mem_nil, or_false] at hg
    rcases hg with rfl | rfl <;> exact ⟨isName_of _ (by decide +kernel), isName_of _ (by decide +kernel), by simp [dict]⟩
  have g3 : ∀ a b c : Str, Template.substitute (dict [("build_info", a), ("vcs_info", b), ("copyright", c), ("description_short", i.description), ("legal_brief", i.license)]) fileTemplate =
      some (guard ++ (a ++ ("\n\n".toList ++ (b ++ ("\n\n".toList ++ part "#endif\n".toList [⟨"Copyright".toList, c, [], 1⟩, ⟨"DescriptionShort".toList, i.description, [], 1⟩,
        ⟨"LegalBrief".toList, i.license, [], 1⟩]))))) := by
    intro a b c
    rw [h3]
    refine sub_text (by decide +kernel) (sub_name (isName_of _ (by decide +kernel)) (by simp [dict]) ?_ (by rintro c r e; cases e; decide))
    refine sub_text (by decide +kernel) (sub_name (isName_of _ (by decide +kernel)) (by simp [dict]) ?_ (by rintro c r e; cases e; decide))
    refine sub_text (by decide +kernel) ?_
    refine sub_part (gs := [(⟨"Copyright".toList, c, [], 1⟩, "copyright".toList), (⟨"DescriptionShort".toList, i.description, [], 1⟩, "description_short".toList),
      (⟨"LegalBrief".toList, i.license, [], 1⟩, "legal_brief".toList)]) ?_ (Template.substitute_text (by decide +kernel))
    intro g hg
    simp only [List.mem_cons, List.not_mem_nil, or_false] at hg
    rcases hg with rfl | rfl | rfl <;> exact ⟨isName_of _ (by decide +kernel), isName_of _ (by decide +kernel), by simp [dict]⟩
  have hnl : "\n\n".toList = ['\n', '\n'] := by decide +kernel
  simp only [header, g1, g2, g3, Option.bind_eq_bind, Option.bind_some, body_part, segs, part_cons, part_nil, List.append_assoc, hnl, List.cons_append, List.nil_append, List.replicate]

theorem run_guard (rest : Str) : run .line (guard ++ rest) = run .line rest := by
  have : run .line guard = some (.line, []) := by decide +kernel
  rw [run_append_of this]
  cases run .line rest <;> simp

theorem segs_names (i : Info) : ∀ g ∈ segs i, Template.IsName g.name := by
  intro g hg
  simp only [segs, List.mem_cons, List.not_mem_nil, or_false] at hg
  rcases hg with rfl | rfl | rfl | rfl | rfl | rfl | rfl | rfl <;> exact isName_of _ (by decide +kernel)

theorem segs_distinct (i : Info) : ((segs i).map (·.name)).Nodup := by
  show ["BuildId".toList, "BuildStartTime".toList, "BuildHost".toList, "VcsRevisionId".toList, "VcsTag".toList, "Copyright".toList, "DescriptionShort".toList, "LegalBrief".toList].Nodup
  decide +kernel

theorem clean_fixed (s : String) (h : decide (Clean s.toList) = true) : Clean s.toList := by simpa using h

theorem clean_join {sep : Str} (hs : Clean sep) {l : List Str} (h : ∀ x ∈ l, Clean x) : Clean (join sep l) := by
  match l with
  | [] => simp [join, Clean]
  | [x] => exact h x (by simp)
  | x :: y :: l => exact ((h x (by simp)).append hs).append (clean_join hs fun z hz => h z (by simp [hz]))

theorem clean_digits (n : Nat) : Clean (Nat.toDigits 10 n) := fun c hc => by
  have := Nat.isDigit_of_mem_toDigits (by decide) (by decide) hc
  refine ⟨?_, ?_, ?_, ?_⟩ <;> (rintro rfl; revert this; decide)

theorem clean_notice {h : Holder} (ha : Clean h.author) : Clean (notice h) := by
  refine (((clean_fixed "© " (by decide +kernel)).append (clean_join (clean_fixed ", " (by decide +kernel)) ?_)).append (clean_fixed " : " (by decide +kernel))).append ha
  intro x hx
  obtain ⟨y, _, rfl⟩ := List.mem_map.mp hx
  exact clean_digits y

theorem insertYear_perm (y : Nat) (l : List Nat) : (insertYear y l).Perm (y :: l) := by
  induction l with
  | nil => exact .refl _
  | cons x l ih =>
    simp only [insertYear]
    split
    · exact .refl _
    · exact (ih.cons x).trans (List.Perm.swap y x l)

theorem insertYear_sorted {y : Nat} {l : List Nat} (h : l.Pairwise (· ≤ ·)) : (insertYear y l).Pairwise (· ≤ ·) := by
  induction l with
  | nil => simp [insertYear]
  | cons x l ih =>
    simp only [insertYear]
    obtain ⟨h1, h2⟩ := List.pairwise_cons.mp h
    split
    · rename_i hy
      refine List.pairwise_cons.mpr ⟨fun z hz => ?_, h⟩
      rcases List.mem_cons.mp hz with rfl | hz
      · exact hy
      · exact Nat.le_trans hy (h1 z hz)
    · rename_i hy
      refine List.pairwise_cons.mpr ⟨fun z hz => ?_, ih h2⟩
      rcases List.mem_cons.mp ((insertYear_perm y l).mem_iff.mp hz) with rfl | hz
      · omega
      · exact h1 z hz

theorem sortYears_ascending (l : List Nat) : Ascending l (sortYears l) := by
  induction l with
  | nil => exact ⟨.refl _, .nil⟩
  | cons x l ih => exact ⟨(insertYear_perm x _).trans (ih.perm.cons x), insertYear_sorted ih.sorted⟩

theorem notice_is (h : Holder) : IsNotice h (notice h) := ⟨_, sortYears_ascending h.years, rfl⟩

theorem cString_clean {s : Str} (h : Clean s) : cString s = s := cString_of fun h0 => (h _ h0).2.2.2 rfl

theorem cString_lines {l : List Str} (h : ∀ x ∈ l, Clean x) : cString (join ['\n'] l) = join ['\n'] l := by
  refine cString_of fun h0 => ?_
  have : ∀ l : List Str, (∀ x ∈ l, Clean x) → ∀ c ∈ join ['\n'] l, c ≠ Char.ofNat 0 := by
    intro l
    induction l with
    | nil => intro _ c hc; cases hc
    | cons x l ih =>
      intro h c hc
      cases l with
      | nil => exact (h x (by simp) c hc).2.2.2
      | cons y l =>
        simp only [join, List.append_assoc, List.mem_append, List.mem_singleton] at hc
        rcases hc with hc | rfl | hc
        · exact (h x (by simp) c hc).2.2.2
        · decide
        · exact ih (fun z hz => h z (by simp [hz])) c hc
  exact this l h _ h0 rfl

theorem compiled_of_clean {i : Info} (h : i.Clean) : compiled (guard ++ body (segs i)) = some i.expected := by
  have hlines : ∀ x ∈ i.copyright.map notice, Clean x := fun x hx => by
    obtain ⟨y, hy, rfl⟩ := List.mem_map.mp hx
    exact clean_notice (h.authors y hy)
  have hl : ∀ g ∈ segs i, Lit g.text g.value := by
    intro g hg
    simp only [segs, List.mem_cons, List.not_mem_nil, or_false] at hg
    rcases hg with rfl | rfl | rfl | rfl | rfl | rfl | rfl | rfl
    · exact h.buildId.noSpecial.lit
    · exact h.startTime.noSpecial.lit
    · exact h.buildHost.noSpecial.lit
    · exact h.commit.noSpecial.lit
    · exact h.tag.noSpecial.lit
    · exact lit_lines hlines
    · exact h.description.noSpecial.lit
    · exact h.license.noSpecial.lit
  have ht : tokens (guard ++ body (segs i)) = some (toks (segs i)) := by
    simp only [tokens, run_guard, run_body (segs_names i) hl]
  have hd : definitions ((toks (segs i)).length + 1) (toks (segs i)) = some ((segs i).map fun g => (g.name, g.value)) := definitions_toks (by simp [segs, toks, lead])
  simp only [compiled, ht, Option.bind_eq_bind, Option.bind_some, hd]
  have e : Info.expected i = ⟨cString i.buildId, cString i.startTime, cString i.buildHost, cString i.commit, cString i.tag, cString (join ['\n'] (i.copyright.map notice)), cString i.description,
      cString i.license⟩ := by
    rw [cString_clean h.buildId, cString_clean h.startTime, cString_clean h.buildHost, cString_clean h.commit, cString_clean h.tag, cString_clean h.description,
      cString_clean h.license, cString_lines hlines]
    rfl
  rw [e]
  rfl

/-- **C108 (partial).** If nothing that is known about the program has a quotation mark, a backslash, a line break or a null character in it, then the header can be compiled, and `--version` and `--about` print exactly what
was known: the name of the version, the revision, the start time, the identity and the host of the build, the short description, one line for each holder of the copyright (with the years in ascending order), and the license.

What is missing: other texts. See `C108_exact` and `C108_false`. -/
theorem C108_partial (i : Info) (h : i.Clean) : ∃ text self lines,
    header i = some text ∧ compiled text = some self ∧ lines.length = i.copyright.length ∧ (∀ (k : Nat) h l, i.copyright[k]? = some h → lines[k]? = some l → IsNotice h l) ∧
    printVersion self = some ("# Maike ".toList ++ (i.tag ++ (" (".toList ++ (i.commit ++ (")\n\nBuild start time: ".toList ++ (i.startTime ++ ("\n\nBuild id: ".toList ++ (i.buildId ++
      ("\n\nBuild host: ".toList ++ (i.buildHost ++ "\n\n".toList)))))))))) ∧
    printAbout self = some ("# Maike ".toList ++ (i.tag ++ (" (".toList ++ (i.commit ++ (")\n\n".toList ++ (i.description ++ ("\n\n".toList ++ (join ['\n'] lines ++ ("\n\n".toList ++ (i.license ++
      ("\n\n## Build info\n\nStart time: ".toList ++ (i.startTime ++ ("\n\nId: ".toList ++ (i.buildId ++ ("\n\nBuild host: ".toList ++ (i.buildHost ++ "\n\n".toList)))))))))))))))) := by
  refine ⟨_, _, i.copyright.map notice, header_eq i, compiled_of_clean h, by simp, ?_, rfl, rfl⟩
  intro k h l hk hl
  rw [List.getElem?_map, hk] at hl
  cases hl
  exact notice_is h

/-- **C108 (exact condition).** Let the names of authors be as in `C108_partial`. If the other texts are not, then the header cannot be compiled, or the program prints something else. -/
theorem C108_exact (i : Info) (ha : ∀ h ∈ i.copyright, Clean h.author) {text : Str} (ht : header i = some text) : compiled text = some i.expected ↔ i.Clean := by
  rw [header_eq] at ht
  cases ht
  refine ⟨fun h => ?_, compiled_of_clean⟩
  have hlines : ∀ x ∈ i.copyright.map notice, Clean x := fun x hx => by
    obtain ⟨y, hy, rfl⟩ := List.mem_map.mp hx
    exact clean_notice (ha y hy)
  simp only [compiled, Option.bind_eq_bind, Option.bind_eq_some_iff] at h
  obtain ⟨ts, h1, defs, h2, v1, g1, v2, g2, v3, g3, v4, g4, v5, g5, v6, g6, v7, g7, v8, g8, h⟩ := h
  cases h
  obtain ⟨m, hm⟩ := tokens_some h1
  rw [run_guard] at hm
  have find : ∀ {name : String} {v : Str}, variable? defs name = some v → ∃ d, defs.find? (fun d => d.1 = name.toList) = some d ∧ cString d.2 = v := by
    intro name v h
    unfold variable? at h
    split at h
    · rename_i d e
      cases h
      refine ⟨d, ?_, rfl⟩
      have := List.head?_filter (p := fun d : Str × Str => decide (d.1 = name.toList)) (l := defs)
      rw [e] at this
      exact this.symm
    · cases h
  have key := clean_of_body (segs_names i) (segs_distinct i) (fun g hg => by
    simp only [segs, List.mem_cons, List.not_mem_nil, or_false] at hg
    rcases hg with rfl | rfl | rfl | rfl | rfl | rfl | rfl | rfl
    · exact .inl rfl
    · exact .inl rfl
    · exact .inl rfl
    · exact .inl rfl
    · exact .inl rfl
    · exact .inr (lit_lines hlines)
    · exact .inl rfl
    · exact .inl rfl) hm h2 (fun g hg => by
    simp only [segs, List.mem_cons, List.not_mem_nil, or_false] at hg
    rcases hg with rfl | rfl | rfl | rfl | rfl | rfl | rfl | rfl
    · exact find g1
    · exact find g2
    · exact find g3
    · exact find g4
    · exact find g5
    · exact find g6
    · exact find g7
    · exact find g8)
  exact ⟨key _ (.head _) rfl, key _ (.tail _ (.head _)) rfl, key _ (.tail _ (.tail _ (.head _))) rfl, key _ (.tail _ (.tail _ (.tail _ (.head _)))) rfl,
    key _ (.tail _ (.tail _ (.tail _ (.tail _ (.head _))))) rfl, ha, key _ (.tail _ (.tail _ (.tail _ (.tail _ (.tail _ (.tail _ (.head _))))))) rfl,
    key _ (.tail _ (.tail _ (.tail _ (.tail _ (.tail _ (.tail _ (.tail _ (.head _)))))))) rfl⟩

/-! ## Examples -/

/-- A project like this one. -/
def example₁ : Info where
  buildId := "00ff".toList
  startTime := "2021-05-01 12:00:00 UTC".toList
  buildHost := "host".toList
  commit := "0123abcd".toList
  tag := "1.0".toList
  copyright := [⟨[2017, 2016], "Torbjörn Rathsman".toList⟩, ⟨[2021], "B".toList⟩]
  description := "A build system; it costs 0 $".toList
  license := "NO WARRANTY".toList

theorem example₁_clean : example₁.Clean where
  buildId := clean_fixed "00ff" (by decide +kernel)
  startTime := clean_fixed "2021-05-01 12:00:00 UTC" (by decide +kernel)
  buildHost := clean_fixed "host" (by decide +kernel)
  commit := clean_fixed "0123abcd" (by decide +kernel)
  tag := clean_fixed "1.0" (by decide +kernel)
  authors h hh := by
    simp only [example₁, List.mem_cons, List.not_mem_nil, or_false] at hh
    rcases hh with rfl | rfl
    · exact clean_fixed "Torbjörn Rathsman" (by decide +kernel)
    · exact clean_fixed "B" (by decide +kernel)
  description := clean_fixed "A build system; it costs 0 $" (by decide +kernel)
  license := clean_fixed "NO WARRANTY" (by decide +kernel)

example : ((header example₁).bind compiled).bind printAbout =
    some "# Maike 1.0 (0123abcd)\n\nA build system; it costs 0 $\n\n© 2016, 2017 : Torbjörn Rathsman\n© 2021 : B\n\nNO WARRANTY\n\n## Build info\n\nStart time: 2021-05-01 12:00:00 UTC\n\nId: 00ff\n\nBuild host: host\n\n".toList := by
  decide +kernel

/-- **C108 (false in general).** A name of a version with a quotation mark, which Git accepts, makes a header that cannot be compiled; a backslash in a description is not printed; and with two literals in the place of
one, the program can be compiled, and prints something else. -/
theorem C108_false :
    (header { example₁ with tag := "v\"1".toList }).bind compiled = none ∧
    ((header { example₁ with description := "C:\\new".toList }).bind compiled).map (·.descriptionShort) = some "C:\new".toList ∧
    ((header { example₁ with tag := "v\" \"1".toList }).bind compiled).map (·.vcsTag) = some "v1".toList := by
  decide +kernel

end Maike.Text.About
