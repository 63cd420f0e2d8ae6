import Verif.Props.Decoding
import Verif.Spec.Shell

/-!
# C126: how the internal decoder is called
-/

namespace Honeycomb

theorem split_plain {w : List Char} (hw : ∀ c ∈ w, c ≠ '\'' ∧ c ≠ ' ') (word : Option (List Char)) (hne : w ≠ []) (rest : List Char) :
    splitWords word false (w ++ rest) = splitWords (some (word.getD [] ++ w)) false rest := by
  induction w generalizing word with
  | nil => exact absurd rfl hne
  | cons c w ih =>
    rw [List.cons_append, splitWords, if_neg (hw c (by simp)).1, if_neg (hw c (by simp)).2]
    cases w with
    | nil => rfl
    | cons d w =>
      rw [ih (fun c' h' => hw c' (by simp [h'])) _ (by simp)]
      simp

theorem split_quoted {w : List Char} (hw : ∀ c ∈ w, c ≠ '\'') (word : Option (List Char)) (rest : List Char) :
    splitWords word true (w ++ '\'' :: rest) = splitWords (some (word.getD [] ++ w)) false rest := by
  induction w generalizing word with
  | nil => rw [List.nil_append, splitWords, if_pos rfl, List.append_nil]
  | cons c w ih =>
    rw [List.cons_append, splitWords, if_neg (hw c (by simp)), ih fun c' h' => hw c' (by simp [h'])]
    simp

theorem split_blank (word : Option (List Char)) (rest : List Char) :
    splitWords word false (' ' :: rest) = (splitWords none false rest).map (word.toList ++ ·) := by
  rw [splitWords, if_neg (by decide), if_pos rfl]

/-- A plain word at the start. -/
theorem split_word {w : List Char} (hw : ∀ c ∈ w, c ≠ '\'' ∧ c ≠ ' ') (hne : w ≠ []) (rest : List Char) :
    splitWords none false (w ++ ' ' :: rest) = (splitWords none false rest).map (w :: ·) := by
  rw [split_plain hw none hne, split_blank]
  rfl

/-- A quoted word at the start. -/
theorem split_quote {w : List Char} (hw : ∀ c ∈ w, c ≠ '\'') (rest : List Char) :
    splitWords none false ('\'' :: (w ++ '\'' :: rest)) = splitWords (some w) false rest := by
  rw [splitWords, if_pos rfl, split_quoted hw]
  rfl

theorem split_quote_word {w : List Char} (hw : ∀ c ∈ w, c ≠ '\'') (rest : List Char) :
    splitWords none false ('\'' :: (w ++ '\'' :: ' ' :: rest)) = (splitWords none false rest).map (w :: ·) := by
  rw [split_quote hw, split_blank]
  rfl

/-- The words of the command for the internal decoder. -/
def internalArgv (path tmp : String) (correlated : Bool) : List String :=
  [path, "-mode", "fi_match_from_dem", "-dem_fname", tmp ++ "/model.dem", "-dets_fname", tmp ++ "/shots.dets",
    "-ignore_distance_1_errors", "-out", tmp ++ "/out.predictions"] ++ if correlated then ["-cheap_corr", "-edge_corr", "-node_corr"] else []

theorem internalCommand_toList (path dem dets out : String) (correlated : Bool) : (internalCommand path dem dets out correlated).toList =
    path.toList ++ ' ' :: ("-mode".toList ++ ' ' :: ("fi_match_from_dem".toList ++ ' ' :: ("-dem_fname".toList ++ ' ' ::
      '\'' :: (dem.toList ++ '\'' :: ' ' :: ("-dets_fname".toList ++ ' ' :: '\'' :: (dets.toList ++ '\'' :: ' ' ::
        ("-ignore_distance_1_errors".toList ++ ' ' :: ("-out".toList ++ ' ' :: '\'' :: (out.toList ++ '\'' ::
          (if correlated then " -cheap_corr -edge_corr -node_corr" else "").toList))))))))) := by
  simp only [internalCommand, String.toList_append]
  have e1 : " -mode fi_match_from_dem -dem_fname '".toList = ' ' :: ("-mode".toList ++ ' ' :: ("fi_match_from_dem".toList ++ ' ' ::
    ("-dem_fname".toList ++ [' ', '\'']))) := by decide +kernel
  have e2 : "' -dets_fname '".toList = '\'' :: ' ' :: ("-dets_fname".toList ++ [' ', '\'']) := by decide +kernel
  have e3 : "' -ignore_distance_1_errors -out '".toList = '\'' :: ' ' :: ("-ignore_distance_1_errors".toList ++ ' ' ::
    ("-out".toList ++ [' ', '\''])) := by decide +kernel
  have e4 : "'".toList = ['\''] := by decide +kernel
  rw [e1, e2, e3, e4]
  simp only [List.append_assoc, List.cons_append, List.nil_append]

theorem internalCommand_words (path tmp : String) (correlated : Bool) (hp : ∀ c ∈ path.toList, c ≠ '\'' ∧ c ≠ ' ') (hp0 : path.toList ≠ [])
    (ht : '\'' ∉ tmp.toList) :
    shellWords (internalCommand path (tmp ++ "/model.dem") (tmp ++ "/shots.dets") (tmp ++ "/out.predictions") correlated) =
      some (internalArgv path tmp correlated) := by
  have hfile : ∀ f : String, '\'' ∉ f.toList → ∀ c ∈ (tmp ++ f).toList, c ≠ '\'' := by
    intro f hf c hc e
    rw [String.toList_append, List.mem_append] at hc
    subst e
    exact hc.elim ht hf
  rw [shellWords, internalCommand_toList, split_word hp hp0, split_word (by decide +kernel) (by decide +kernel),
    split_word (by decide +kernel) (by decide +kernel), split_word (by decide +kernel) (by decide +kernel),
    split_quote_word (hfile _ (by decide +kernel)), split_word (by decide +kernel) (by decide +kernel),
    split_quote_word (hfile _ (by decide +kernel)), split_word (by decide +kernel) (by decide +kernel),
    split_word (by decide +kernel) (by decide +kernel), split_quote (hfile _ (by decide +kernel))]
  have hlast : ∀ w : List Char, splitWords (some w) false (if correlated then " -cheap_corr -edge_corr -node_corr" else "").toList =
      some (w :: if correlated then ["-cheap_corr".toList, "-edge_corr".toList, "-node_corr".toList] else []) := by
    intro w
    cases correlated with
    | false => rfl
    | true =>
      have e : (if (true : Bool) = true then " -cheap_corr -edge_corr -node_corr" else "").toList =
        ' ' :: ("-cheap_corr".toList ++ ' ' :: ("-edge_corr".toList ++ ' ' :: ("-node_corr".toList ++ []))) := by decide +kernel
      rw [e, split_blank, split_word (by decide +kernel) (by decide +kernel), split_word (by decide +kernel) (by decide +kernel),
        split_plain (by decide +kernel) none (by decide +kernel)]
      rfl
  rw [hlast]
  cases correlated <;> simp [internalArgv, String.ofList_toList]

/-- C126: `run` is a shell that executes the words of a command. If the decoder program is found, it is executed with exactly these
arguments: the files of the temporary directory, each where it belongs, and the three options for correlations exactly if correlated
decoding was asked for. This holds for every temporary directory without a single quote in its name, with blanks or not. The program is
the first of the three places at which there is one. Its predictions are returned; if it fails, there is an exception. -/
theorem c126_called (c : CircuitInfo) (dets : BitMatrix) (correlated : Bool) (pathExists : String → Bool) (tmp : String)
    (run : String → List Char → Option (List Char)) (exec : List String → List Char → Option (List Char))
    (hrun : ∀ command words text, shellWords command = some words → run command text = exec words text)
    (hd : ∀ r ∈ dets, r.length = c.num_detectors) (ht : '\'' ∉ tmp.toList) (path : String)
    (hpath : path = "./internal_decoder.binary" ∧ pathExists "./internal_decoder.binary" = true ∨
      path = "src/internal_decoder.binary" ∧ pathExists "./internal_decoder.binary" = false ∧ pathExists "src/internal_decoder.binary" = true ∨
      path = "../internal_decoder.binary" ∧ pathExists "./internal_decoder.binary" = false ∧ pathExists "src/internal_decoder.binary" = false ∧
        pathExists "../internal_decoder.binary" = true) :
    (∀ m : BitMatrix, m.length = dets.length → (∀ r ∈ m, r.length = c.num_observables) →
      exec ([path, "-mode", "fi_match_from_dem", "-dem_fname", tmp ++ "/model.dem", "-dets_fname", tmp ++ "/shots.dets",
        "-ignore_distance_1_errors", "-out", tmp ++ "/out.predictions"] ++
          if correlated then ["-cheap_corr", "-edge_corr", "-node_corr"] else []) (detsFile dets) = some (predictionFile m) →
      decodeUsingInternal c dets correlated pathExists tmp run = .ok m) ∧
    (exec ([path, "-mode", "fi_match_from_dem", "-dem_fname", tmp ++ "/model.dem", "-dets_fname", tmp ++ "/shots.dets",
        "-ignore_distance_1_errors", "-out", tmp ++ "/out.predictions"] ++
          if correlated then ["-cheap_corr", "-edge_corr", "-node_corr"] else []) (detsFile dets) = none →
      ∃ e, decodeUsingInternal c dets correlated pathExists tmp run = .error e) := by
  have hshape : hasShape dets dets.length c.num_detectors = true := by
    simp only [hasShape, beq_self_eq_true, Bool.true_and, List.all_eq_true, beq_iff_eq]
    exact hd
  have hp : internalDecoderPath pathExists = some path := by
    have e : ["./", "src/", "../"].map (· ++ "internal_decoder.binary") =
      ["./internal_decoder.binary", "src/internal_decoder.binary", "../internal_decoder.binary"] := by decide +kernel
    rw [internalDecoderPath, e]
    rcases hpath with ⟨rfl, h1⟩ | ⟨rfl, h1, h2⟩ | ⟨rfl, h1, h2, h3⟩ <;> simp [*]
  have hplain : (∀ c ∈ path.toList, c ≠ '\'' ∧ c ≠ ' ') ∧ path.toList ≠ [] := by
    rcases hpath with ⟨rfl, -⟩ | ⟨rfl, -⟩ | ⟨rfl, -⟩ <;> decide +kernel
  have hcall := hrun _ _ (detsFile dets) (internalCommand_words path tmp correlated hplain.1 hplain.2 ht)
  rw [internalArgv] at hcall
  refine ⟨fun m h1 h2 h3 => ?_, fun h3 => ?_⟩
  · rw [decodeUsingInternal, hshape, hp]
    simp only [Bool.not_true, Bool.false_eq_true, if_false, hcall, h3]
    exact (c39_predictions _ _ _ _).2 ⟨h1, h2, List.prefix_refl _⟩
  · rw [decodeUsingInternal, hshape, hp]
    simp only [Bool.not_true, Bool.false_eq_true, if_false, hcall, h3]
    exact ⟨_, rfl⟩

/-- C126: without the program in any of the three places there is a RuntimeError, and nothing is executed. -/
theorem c126_missing (c : CircuitInfo) (dets : BitMatrix) (correlated : Bool) (pathExists : String → Bool) (tmp : String)
    (run : String → List Char → Option (List Char)) (hd : ∀ r ∈ dets, r.length = c.num_detectors)
    (h1 : pathExists "./internal_decoder.binary" = false) (h2 : pathExists "src/internal_decoder.binary" = false)
    (h3 : pathExists "../internal_decoder.binary" = false) : decodeUsingInternal c dets correlated pathExists tmp run = .error .runtimeError := by
  have hshape : hasShape dets dets.length c.num_detectors = true := by
    simp only [hasShape, beq_self_eq_true, Bool.true_and, List.all_eq_true, beq_iff_eq]
    exact hd
  have e : ["./", "src/", "../"].map (· ++ "internal_decoder.binary") =
    ["./internal_decoder.binary", "src/internal_decoder.binary", "../internal_decoder.binary"] := by decide +kernel
  have hp : internalDecoderPath pathExists = none := by
    rw [internalDecoderPath, e]
    simp [*]
  rw [decodeUsingInternal, hshape, hp]
  rfl

theorem split_none (word : Option (List Char)) (q : Bool) (cs : List Char) (h : (cs.count '\'' + if q then 1 else 0) % 2 = 1) :
    splitWords word q cs = none := by
  induction cs generalizing word q with
  | nil => cases q <;> simp_all [splitWords]
  | cons c cs ih =>
    by_cases hc : c = '\''
    · subst hc
      rw [List.count_cons_self] at h
      cases q
      · rw [splitWords, if_pos rfl]
        exact ih _ _ (by simp at h ⊢; omega)
      · rw [splitWords, if_pos rfl]
        exact ih _ _ (by simp at h ⊢; omega)
    · rw [List.count_cons_of_ne hc] at h
      cases q
      · rw [splitWords, if_neg hc]
        split_ifs
        · rw [ih _ _ h]; rfl
        · exact ih _ _ h
      · rw [splitWords, if_neg hc]
        exact ih _ _ h

/-- C126: the command is not made safe for single quotes: if the name of the temporary directory has one (or any odd number), the command
that is given to the shell has a quote that is never closed. -/
theorem c126_quote (path tmp : String) (correlated : Bool) (hp : '\'' ∉ path.toList) (ht : tmp.toList.count '\'' % 2 = 1) :
    shellWords (internalCommand path (tmp ++ "/model.dem") (tmp ++ "/shots.dets") (tmp ++ "/out.predictions") correlated) = none := by
  have hcount : ∀ f : String, '\'' ∉ f.toList → (tmp ++ f).toList.count '\'' = tmp.toList.count '\'' := fun f hf => by
    rw [String.toList_append, List.count_append, List.count_eq_zero.2 hf, Nat.add_zero]
  have hk : ∀ s : String, '\'' ∉ s.toList → s.toList.count '\'' = 0 := fun s h => List.count_eq_zero.2 h
  rw [shellWords, split_none]
  · rfl
  rw [internalCommand_toList]
  simp only [List.count_append, List.count_cons_self, List.count_cons_of_ne (show (' ' : Char) ≠ '\'' by decide),
    hcount "/model.dem" (by decide +kernel), hcount "/shots.dets" (by decide +kernel), hcount "/out.predictions" (by decide +kernel), hk path hp,
    hk "-mode" (by decide +kernel), hk "fi_match_from_dem" (by decide +kernel), hk "-dem_fname" (by decide +kernel),
    hk "-dets_fname" (by decide +kernel), hk "-ignore_distance_1_errors" (by decide +kernel), hk "-out" (by decide +kernel),
    hk (if correlated then " -cheap_corr -edge_corr -node_corr" else "") (by cases correlated <;> decide +kernel)]
  simp
  omega

/-- The line of a shot in the file for the decoder: the numbers of the detectors that fired, in ascending order. -/
def ShotLine (row : List Bool) (line : List Char) : Prop :=
  ∃ ks : List Nat, ks.Pairwise (· < ·) ∧ (∀ k, k ∈ ks ↔ row[k]? = some true) ∧
    line = "shot".toList ++ (ks.flatMap fun k => ' ' :: 'D' :: (toString k).toList) ++ ['\n']

/-- C126: the shot file has one line per shot, in order, and the line names exactly the detectors that fired. -/
theorem c126_shots (dets : BitMatrix) : ∃ lines, detsFile dets = lines.flatten ∧ List.Forall₂ ShotLine dets lines := by
  refine ⟨dets.map detsLine, by rw [detsFile, List.flatMap_def], ?_⟩
  rw [List.forall₂_map_right_iff, List.forall₂_same]
  intro row _
  refine ⟨nonzero row, List.pairwise_lt_range.sublist List.filter_sublist, fun k => ?_, ?_⟩
  · rw [nonzero, List.mem_filter, List.mem_range]
    constructor
    · rintro ⟨h1, h2⟩
      rw [List.getElem?_eq_getElem h1]
      rw [List.getD_eq_getElem?_getD, List.getElem?_eq_getElem h1] at h2
      simpa using h2
    · intro h
      exact ⟨(List.getElem?_eq_some_iff.1 h).1, by rw [List.getD_eq_getElem?_getD, h]; rfl⟩
  · rw [detsLine]
    congr 2
    refine congrArg (fun f => List.flatMap f (nonzero row)) (funext fun k => ?_)
    show _ = ' ' :: 'D' :: (Nat.repr k).toList
    rw [show (Nat.repr k).toList = Nat.toDigits 10 k from String.toList_ofList]
    rfl

example : ∃ lines, detsFile [[true, false, true], [false, false, false]] = lines.flatten ∧
    List.Forall₂ ShotLine [[true, false, true], [false, false, false]] lines := c126_shots _

/-- A directory with a blank in its name; the decoder answers one prediction for one shot. -/
example : decodeUsingInternal ⟨2, 1⟩ [[true, false]] true (fun p => decide (p = "src/internal_decoder.binary")) "/tmp/a b"
    (fun command _ => (shellWords command).bind fun words =>
      if words.length = 13 then some (predictionFile [[true]]) else none) = .ok [[true]] := by
  refine (c126_called ⟨2, 1⟩ [[true, false]] true _ "/tmp/a b" _ (fun words _ => if words.length = 13 then some (predictionFile [[true]]) else none)
    (fun command words text h => by simp [h]) (by decide) (by decide +kernel) "src/internal_decoder.binary"
    (.inr (.inl ⟨rfl, by decide +kernel, by decide +kernel⟩))).1 [[true]] rfl (by decide) (by simp)

example : "/tmp/o'neil".toList.count '\'' % 2 = 1 := by decide +kernel

end Honeycomb
