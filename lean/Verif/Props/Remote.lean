import Verif.Lemmas.Remote
import Verif.Lemmas.Legacy115
/-!
# Properties C44, C45, C51: log stream, socket header, tracked logs
-/
namespace Nxt.Props
open Remote Spec Py

/-! ## C44 -/

/-- C44 (part: no header is split).  Records framed by their length arrive as the same records,
whatever the segmentation of the bodies is.  Missing: headers which arrive in pieces, where it fails
(`C44_split_header_violation`). -/
theorem C44_frames_partial (rs segs : List (List Nat)) (hr : ∀ r ∈ rs, r.length < 4294967296)
    (hlive : ∀ s ∈ segs, s ≠ []) (hf : segs.flatten = frames rs) (hw : HeadersWhole rs segs)
    (fuel : Nat) (hfu : (frames rs).length + rs.length < fuel) : handle fuel segs = some rs := by
  obtain ⟨s', f', r', g⟩ := handle_frames rs [] hr segs hlive (by simpa using hf) hw
  have hs' : s' = [] := by
    cases s' with
    | nil => rfl
    | cons a t =>
      exfalso
      have := r'.live a (List.mem_cons_self ..)
      simp only [List.flatten_cons, List.append_eq_nil_iff] at f'
      exact this f'.1
  have := g ((frames rs).length + 1) (by omega)
  rw [hs'] at this
  have hn : handle ((frames rs).length + 1) [] = some [] := by
    rw [handle]; rfl
  rw [hn] at this
  have h2 := handle_mono this (fuel - ((frames rs).length + 1 + rs.length))
  rw [show (frames rs).length + 1 + rs.length + (fuel - ((frames rs).length + 1 + rs.length)) = fuel by omega] at h2
  simpa using h2

/-- C44, violated: when the header of a record is spread over two segments, that record and all
later ones are lost without a sign. -/
theorem C44_split_header_violation (before after : List (List Nat)) (r : List Nat) (segs : List (List Nat))
    (hr : ∀ x ∈ before, x.length < 4294967296)
    (hlive : ∀ s ∈ segs, s ≠ []) (hf : segs.flatten = frames (before ++ r :: after))
    (hw : HeadersWhole before segs) (b : Nat) (hb : SegmentEnd segs b)
    (hsplit : (frames before).length < b ∧ b < (frames before).length + 4)
    (fuel : Nat) (hfu : (frames before).length + before.length < fuel) :
    handle fuel segs = some before := by
  obtain ⟨s', f', r', g⟩ := handle_frames before (frames (r :: after)) hr segs hlive
    (by rw [hf, frames_append]) hw
  have hb' : SegmentEnd s' (b - (frames before).length) :=
    (r'.ends _ (by omega)).2 (by rwa [Nat.add_sub_cancel' (by omega)])
  have hn : handle ((frames before).length + 1) s' = some [] := by
    rw [handle]
    obtain ⟨k, hk⟩ := hb'
    cases s' with
    | nil => rfl
    | cons seg rest =>
      have hlt : seg.length < 4 := by
        cases k with
        | zero => simp at hk; omega
        | succ k => simp only [List.take_succ_cons, List.flatten_cons, List.length_append] at hk; omega
      have hrv : recv 4 (seg :: rest) = (seg, rest) := by
        simp only [recv]; rw [if_pos (by omega)]
      simp only [hrv]
      rw [if_pos hlt]
  have := g ((frames before).length + 1) (by omega)
  rw [hn] at this
  have h2 := handle_mono this (fuel - ((frames before).length + 1 + before.length))
  rw [show (frames before).length + 1 + before.length +
    (fuel - ((frames before).length + 1 + before.length)) = fuel by omega] at h2
  simpa using h2

/-- C44, violated: a connection closed inside a body keeps the handler busy for ever. -/
theorem C44_closed_violation (before : List (List Nat)) (r : List Nat) (k : Nat) (segs : List (List Nat))
    (hr : ∀ x ∈ before ++ [r], x.length < 4294967296) (hk : k < r.length)
    (hlive : ∀ s ∈ segs, s ≠ []) (hf : segs.flatten = frames before ++ be32 r.length ++ r.take k)
    (hw : HeadersWhole (before ++ [r]) segs) (fuel : Nat) : handle fuel segs = none := by
  obtain ⟨s', f', r', g⟩ := handle_frames before (be32 r.length ++ r.take k)
    (fun x hx => hr x (by simp [hx])) segs hlive (by simpa using hf)
    (fun o b ⟨A, q, B, e, ho⟩ => hw o b ⟨A, q, B ++ [r], by simp [e], ho⟩)
  have hend : ∀ b, SegmentEnd s' b → ¬ (0 < b ∧ b < 4) := fun b hb hlt =>
    hw (frames before).length _ ⟨before, r, [], rfl, rfl⟩ ((r'.ends b hlt.1).1 hb) (by omega)
  obtain ⟨s1, h1, f1, r1⟩ := recv_header (be32 r.length) (r.take k) rfl s' r'.live f' hend
  have hn : ∀ n, handle n s' = none := by
    intro n
    cases n with
    | zero => rfl
    | succ n =>
      rw [handle]
      simp only [h1, be32_length, Nat.lt_irrefl, if_false, unpack_be32 _ (hr r (by simp))]
      obtain ⟨e1, e2, e3, e4⟩ := recv_spec r.length (by omega) s1 r1.live
      rw [readBody_short _ _ _ _ e4.live]
      have := congrArg List.length e1
      rw [List.length_append, f1, List.length_take] at this
      omega
  have := g (fuel + (frames before).length) (by omega)
  rw [hn] at this
  cases hh : handle fuel segs with
  | none => rfl
  | some x =>
    have := handle_mono hh ((frames before).length + before.length)
    rw [← Nat.add_assoc] at this
    simp_all

/-- Two records in segments which cut a body. -/
example : handle 100 [[0, 0, 0, 3, 7], [8], [9, 0, 0, 0, 1, 5]] = some [[7, 8, 9], [5]] := by decide +kernel
/-- A header in two pieces. -/
example : handle 100 [[0, 0, 0, 3, 7], [8, 9, 0, 0], [0, 1, 5]] = some [[7, 8, 9]] := by decide +kernel
/-- The hypotheses of `C44_frames_partial` hold for the first of them. -/
example : HeadersWhole [[7, 8, 9], [5]] [[0, 0, 0, 3, 7], [8], [9, 0, 0, 0, 1, 5]] := by
  rintro o b ⟨A, r, B, he, rfl⟩ ⟨k, rfl⟩
  match A, he with
  | [], _ => 
    match k with
    | 0 | 1 | 2 | 3 => decide
    | k + 4 => simp [frames]
  | [a], he =>
    cases he
    match k with
    | 0 | 1 | 2 | 3 => decide
    | k + 4 => simp [frames, be32]
  | a :: b :: A, he => simp at he

/-! ## C45 -/

theorem numeral_append (a b : Str) : numeral (a ++ b) = numeral a * 10 ^ b.length + numeral b := by
  induction a with
  | nil => simp [numeral]
  | cons c cs ih =>
    simp only [List.cons_append, numeral, ih, List.length_append, Nat.pow_add, Nat.add_mul]
    rw [Nat.mul_assoc, Nat.add_assoc]

theorem numeral_dec (n : Nat) : numeral (Names.dec n) = n := by
  induction n using Nat.strongRecOn with
  | ind n ih =>
    unfold Names.dec
    split
    · rename_i h
      simp [numeral, Names.digitChar_val n h]
    · rw [numeral_append, ih _ (by omega)]
      simp only [numeral, Names.digitChar_val (n % 10) (by omega), List.length_cons, List.length_nil]
      omega

theorem dec_length_le (k n : Nat) (h : n < 10 ^ (k + 1)) : (Names.dec n).length ≤ k + 1 := by
  induction k generalizing n with
  | zero => unfold Names.dec; rw [if_pos (by simpa using h)]; simp
  | succ k ih =>
    unfold Names.dec
    split
    · simp
    · have := ih (n / 10) (by rw [Nat.pow_succ] at h; omega)
      simp; omega

theorem lt_dec_length (k n : Nat) (h : 10 ^ k ≤ n) : k < (Names.dec n).length := by
  induction k generalizing n with
  | zero => exact List.length_pos_iff.2 (Names.dec_ne_nil n)
  | succ k ih =>
    unfold Names.dec
    rw [Nat.pow_succ] at h
    have h1 : 1 ≤ 10 ^ k := Nat.one_le_pow _ _ (by omega)
    rw [if_neg (by omega)]
    have := ih (n / 10) (by omega)
    simp; omega

/-- C45 (part: Python 2, where `bytes` takes a text).  Before a message of less than 10^10 bytes
stand ten characters: the length in decimal digits, then blanks.  Missing: Python 3, where nothing
is ever sent (`TypeError`), and longer messages (`C45_long_violation`). -/
theorem C45_header_partial (msg : Str) (h : msg.length < 10000000000) :
    ∃ digits blanks, sendToServer false true msg = .sent (digits ++ blanks ++ msg) ∧
      (digits ++ blanks).length = 10 ∧ digits ≠ [] ∧ (∀ c ∈ digits, c ∈ "0123456789".toList) ∧
      (∀ c ∈ blanks, c = ' ') ∧ numeral digits = msg.length := by
  refine ⟨Names.dec msg.length, List.replicate (10 - (Names.dec msg.length).length) ' ', rfl, ?_,
    Names.dec_ne_nil _, Names.dec_digits _, fun c hc => (List.mem_replicate.1 hc).2, numeral_dec _⟩
  have := dec_length_le 9 msg.length h
  simp only [List.length_append, List.length_replicate]; omega

/-- C45, violated from 10^10 bytes on: the header is longer than ten characters. -/
theorem C45_long_violation (msg : Str) (h : 10000000000 ≤ msg.length) :
    ∃ hd, sendToServer false true msg = .sent (hd ++ msg) ∧ 10 < hd.length := by
  refine ⟨_, rfl, ?_⟩
  have := lt_dec_length 10 msg.length h
  simp only [padRight, List.length_append]; omega

/-- What a sequence of messages puts on the wire. -/
def wire (ms : List Str) : List SendResult := ms.map (sendToServer false true)

/-- C45: the stream determines the messages: two sequences of messages with the same bytes are the
same. -/
theorem C45_stream_injective (ms ms' : List Str) (h : ∀ m ∈ ms, m.length < 10000000000)
    (h' : ∀ m ∈ ms', m.length < 10000000000) (data data' : List Str)
    (hd : wire ms = data.map .sent) (hd' : wire ms' = data'.map .sent)
    (he : data.flatten = data'.flatten) : ms = ms' := by
  have hdr : ∀ (m d : Str), m.length < 10000000000 → sendToServer false true m = .sent d →
      d = padRight (Names.dec m.length) 10 ++ m ∧ (padRight (Names.dec m.length) 10).length = 10 := by
    intro m d hm hs
    refine ⟨(SendResult.sent.inj hs).symm, ?_⟩
    have := dec_length_le 9 m.length hm
    simp only [padRight, List.length_append, List.length_replicate]; omega
  have hlen : ∀ m m' : Str, m.length < 10000000000 → m'.length < 10000000000 →
      padRight (Names.dec m.length) 10 = padRight (Names.dec m'.length) 10 → m.length = m'.length := by
    intro m m' hm hm' e
    have key : ∀ n, (padRight (Names.dec n) 10).takeWhile (· != ' ') = Names.dec n := by
      intro n
      unfold padRight
      rw [List.takeWhile_append_of_pos (by
        intro c hc
        have := Names.dec_digits n c hc
        have hne : c ≠ ' ' := by rintro rfl; exact absurd this (by decide)
        simp [hne])]
      have : (List.replicate (10 - (Names.dec n).length) ' ').takeWhile (· != ' ') = [] := by
        cases 10 - (Names.dec n).length <;> simp [List.replicate_succ]
      rw [this, List.append_nil]
    have := congrArg (List.takeWhile (· != ' ')) e
    rw [key, key] at this
    exact Names.dec_inj this
  unfold wire at hd hd'
  induction ms generalizing ms' data data' with
  | nil =>
    cases data with
    | cons => cases hd
    | nil =>
      cases ms' with
      | nil => rfl
      | cons m' ms' =>
        cases data' with
        | nil => cases hd'
        | cons d' data' =>
          simp only [List.map_cons, List.cons.injEq] at hd'
          obtain ⟨e1, e2⟩ := hdr m' d' (h' m' (List.mem_cons_self ..)) hd'.1
          have := congrArg List.length he
          simp only [List.flatten_nil, List.length_nil, List.flatten_cons, e1, List.length_append] at this
          omega
  | cons m ms ih =>
    cases data with
    | nil => cases hd
    | cons d data =>
      simp only [List.map_cons, List.cons.injEq] at hd
      obtain ⟨e1, e2⟩ := hdr m d (h m (List.mem_cons_self ..)) hd.1
      cases ms' with
      | nil =>
        cases data' with
        | cons => cases hd'
        | nil =>
          have := congrArg List.length he
          simp only [List.flatten_nil, List.length_nil, List.flatten_cons, e1, List.length_append] at this
          omega
      | cons m' ms' =>
        cases data' with
        | nil => cases hd'
        | cons d' data' =>
          simp only [List.map_cons, List.cons.injEq] at hd'
          obtain ⟨f1, f2⟩ := hdr m' d' (h' m' (List.mem_cons_self ..)) hd'.1
          subst e1 f1
          simp only [List.flatten_cons, List.append_assoc] at he
          obtain ⟨a1, a2⟩ := List.append_inj he (by rw [e2, f2])
          have hl := hlen m m' (h m (List.mem_cons_self ..)) (h' m' (List.mem_cons_self ..)) a1
          obtain ⟨b1, b2⟩ := List.append_inj a2 hl
          rw [b1, ih ms' (fun x hx => h x (List.mem_cons_of_mem _ hx))
            (fun x hx => h' x (List.mem_cons_of_mem _ hx)) data data' hd.2 hd'.2 b2]

example : sendToServer false true "hello world!".toList = .sent "12        hello world!".toList := by
  decide +kernel

/-! ## C51 -/

/-- A file which is deleted by `track_log_file`. -/
def Deleted (fs : Fs) (q : Str) : Prop :=
  (fs q).isFile = true ∧ (fs q).removable = true ∧
    ((fs q).mtime = .missing ∨ ∃ s, (fs q).mtime = .age s ∧ 172800 < s)

instance (fs : Fs) (q : Str) : Decidable (Deleted fs q) :=
  decidable_of_iff ((fs q).isFile = true ∧ (fs q).removable = true ∧ isOld (fs q).mtime = true) (by
    unfold Deleted isOld removeAge
    cases (fs q).mtime <;> simp)

theorem deleted_iff (fs : Fs) (q : Str) : Deleted fs q ↔
    ((fs q).isFile = true ∧ (fs q).removable = true ∧ isOld (fs q).mtime = true) := by
  unfold Deleted isOld removeAge
  cases (fs q).mtime <;> simp

theorem track_inv (fs : Fs) (ex done : List Str) :
    let st := done.foldl trackStep (fs, ex)
    (∀ q, st.1 q = if q ∈ done ∧ Deleted fs q then
        { fs q with isFile := false, mtime := .missing } else fs q) ∧
    st.2.Sublist ex ∧
    ∀ q, st.2.count q = ex.count q - (if (fs q).isFile = false then done.count q
      else if Deleted fs q then done.count q - 1 else 0) := by
  induction done using Legacy.snocInduct with
  | nil => exact ⟨by simp, List.Sublist.refl _, by intro q; simp⟩
  | snoc done p ih =>
    obtain ⟨i1, i2, i3⟩ := ih
    simp only [List.foldl_append, List.foldl_cons, List.foldl_nil]
    generalize hst : done.foldl trackStep (fs, ex) = st at *
    obtain ⟨f1, l⟩ := st
    simp only at i1 i2 i3
    have hp := i1 p
    -- the entry is new, a file, and old or not
    have hfile : (f1 p).isFile = true → f1 p = fs p ∧ ¬ (p ∈ done ∧ Deleted fs p) := by
      intro hf
      by_cases hd : p ∈ done ∧ Deleted fs p
      · rw [if_pos hd] at hp; rw [hp] at hf; cases hf
      · rw [if_neg hd] at hp; exact ⟨hp, hd⟩
    unfold trackStep
    simp only
    split
    · -- an old file
      rename_i ho
      rw [Bool.and_eq_true] at ho
      obtain ⟨e, hnd⟩ := hfile ho.1
      rw [e] at ho ⊢
      refine ⟨?_, i2, ?_⟩
      · intro q
        by_cases hq : q = p
        · subst hq
          by_cases hrm : (fs q).removable = true
          · rw [if_pos hrm, if_pos ⟨by simp, (deleted_iff fs q).2 ⟨ho.1, hrm, ho.2⟩⟩]
            simp only [rmFile, if_true, e]
          · rw [if_neg hrm, if_neg (fun hd => hrm hd.2.2.1)]; exact e
        · have : (if (fs p).removable = true then rmFile f1 p else f1) q = f1 q := by
            split
            · simp only [rmFile, if_neg hq]
            · rfl
          simp only
          rw [this, i1 q]
          simp [hq]
      · intro q
        rw [i3 q]
        by_cases hq : q = p
        · subst hq
          simp only [ho.1, Bool.true_eq_false, if_false]
          split
          · rename_i hd
            have : q ∉ done := fun hm => hnd ⟨hm, hd⟩
            rw [List.count_append, List.count_eq_zero.2 this]
            simp
          · rfl
        · rw [List.count_append]
          simp [List.count_cons, Ne.symm hq]
    · rename_i hno
      split
      · -- a vanished file
        rename_i hv
        have hnf : (f1 p).isFile = false := by
          cases hc : (f1 p).isFile
          · rfl
          · rw [hc] at hno hv; simp at hno hv; rw [hv] at hno; cases hno
        have hcase : (fs p).isFile = false ∨ (p ∈ done ∧ Deleted fs p) := by
          by_cases hd : p ∈ done ∧ Deleted fs p
          · exact Or.inr hd
          · rw [if_neg hd] at hp; rw [hp] at hnf; exact Or.inl hnf
        refine ⟨?_, (List.erase_sublist).trans i2, ?_⟩
        · intro q
          simp only
          rw [i1 q]
          by_cases hq : q = p
          · subst hq
            rcases hcase with hc | hc
            · have : ¬ Deleted fs q := fun hd => by rw [hd.1] at hc; cases hc
              simp [this]
            · simp [hc.1]
          · simp [hq]
        · intro q
          by_cases hq : q = p
          · subst hq
            rw [List.count_erase_self, i3 q, List.count_append]
            simp only [List.count_singleton_self]
            rcases hcase with hc | hc
            · simp only [hc, if_true]; omega
            · have h1 := hc.2.1
              have h2 : 0 < done.count q := List.count_pos_iff.2 hc.1
              simp only [h1, Bool.true_eq_false, if_false, if_pos hc.2]; omega
          · rw [List.count_erase_of_ne hq, i3 q, List.count_append]
            simp [List.count_cons, Ne.symm hq]
      · -- a young file
        rename_i hv
        have hf : (f1 p).isFile = true := by
          cases hc : (f1 p).isFile
          · rw [hc] at hv; simp at hv
          · rfl
        obtain ⟨e, hnd⟩ := hfile hf
        rw [hf] at hno hv
        simp only [Bool.true_and, Bool.not_true, Bool.false_or, Bool.not_eq_true] at hno hv
        have hd : ¬ Deleted fs p := by
          rw [deleted_iff, ← e, hno]; simp
        refine ⟨?_, i2, ?_⟩
        · intro q
          show f1 q = _
          rw [i1 q]
          by_cases hq : q = p
          · subst hq; simp [hd]
          · simp [hq]
        · intro q
          show l.count q = _
          rw [i3 q]
          by_cases hq : q = p
          · subst hq
            rw [e] at hf
            simp [hd, hf]
          · rw [List.count_append]
            simp [List.count_cons, Ne.symm hq]

/-- C51: the new log is the last of the list; the entries before it are those tracked so far, in
their order, without those whose file had vanished.  A file deleted now keeps one entry. -/
theorem C51_list (fs : Fs) (ex : List Str) (path : Str) :
    ∃ kept, (track fs ex path).2 = kept ++ [path] ∧
      Thinned (fun q => if (fs q).isFile = false then 0
        else if Deleted fs q then min 1 (ex.count q) else ex.count q) ex kept := by
  obtain ⟨h1, h2, h3⟩ := track_inv fs ex ex
  refine ⟨_, rfl, h2, fun q => ?_⟩
  rw [h3 q]
  simp only
  split
  · omega
  · split <;> omega

/-- C51: exactly the tracked files older than 48 hours (or vanishing meanwhile) which can be removed
are deleted; every other file stays as it was. -/
theorem C51_files (fs : Fs) (ex : List Str) (path q : Str) :
    (¬ (q ∈ ex ∧ Deleted fs q) → (track fs ex path).1 q = fs q) ∧
    (q ∈ ex ∧ Deleted fs q → ((track fs ex path).1 q).isFile = false) := by
  obtain ⟨h1, h2, h3⟩ := track_inv fs ex ex
  constructor
  · intro h; exact (h1 q).trans (if_neg h)
  · intro h; exact congrArg FileInfo.isFile ((h1 q).trans (if_pos h))

theorem rstrip_id (l : Str) (h : ∀ c, l.getLast? = some c → isBlank c = false) : rstrip l = l := by
  rcases l.eq_nil_or_concat with rfl | ⟨a, c, rfl⟩
  · rfl
  · have := h c (by simp)
    simp [rstrip, List.dropWhile_cons, this]

/-- C51: the list written is the list read the next time, for paths without line breaks which do not
end in a blank. -/
theorem C51_roundtrip (logs : List Str) (h : ∀ l ∈ logs, '\n' ∉ l)
    (hb : ∀ l ∈ logs, ∀ c, l.getLast? = some c → isBlank c = false) :
    readMeta (some (writeMeta logs)) = logs := by
  have hs : split '\n' (writeMeta logs) = logs ++ [[]] := by
    clear hb
    induction logs with
    | nil => rfl
    | cons l ls ih =>
      have hl := h l (List.mem_cons_self ..)
      have e : writeMeta (l :: ls) = l ++ '\n' :: writeMeta ls := by simp [writeMeta]
      rw [e]
      have : ∀ (l : Str), '\n' ∉ l → split '\n' (l ++ '\n' :: writeMeta ls) = l :: split '\n' (writeMeta ls) := by
        intro l
        induction l with
        | nil => intro _; simp [split]
        | cons c cs ihc =>
          intro hn
          rw [List.mem_cons, not_or] at hn
          simp only [List.cons_append, split]
          rw [if_neg (Ne.symm hn.1), ihc hn.2]
      rw [this l hl, ih (fun l hl => h l (List.mem_cons_of_mem _ hl))]
      rfl
  unfold readMeta readLines
  simp only [hs, List.getLast?_append, List.getLast?_singleton, Option.some_or, if_true,
    List.dropLast_concat]
  clear hs h
  induction logs with
  | nil => rfl
  | cons l ls ih =>
    rw [List.map_cons, ih (fun l hl => hb l (List.mem_cons_of_mem _ hl)),
      rstrip_id l (hb l (List.mem_cons_self ..))]

/-- C51: tracking a log through the meta log: the logs of the meta log, one on each line, are cleaned up, and the new meta
log has those which are left and the new one. -/
theorem C51_log_file (fs : Fs) (logs : List Str) (path : Str) (h : ∀ l ∈ path :: logs, '\n' ∉ l)
    (hb : ∀ l ∈ path :: logs, ∀ c, l.getLast? = some c → c ∉ [' ', '\t', '\n', '\r', '\x0b', '\x0c']) :
    let r := trackLogFile fs (some ((logs.map (· ++ ['\n'])).flatten)) path
    (∀ q, (¬ (q ∈ logs ∧ Deleted fs q) → r.1 q = fs q) ∧ (q ∈ logs ∧ Deleted fs q → (r.1 q).isFile = false)) ∧
    ∃ kept, r.2 = ((kept ++ [path]).map (· ++ ['\n'])).flatten ∧ readMeta (some r.2) = kept ++ [path] ∧
      Thinned (fun q => if (fs q).isFile = false then 0
        else if Deleted fs q then min 1 (logs.count q) else logs.count q) logs kept := by
  have hb' : ∀ l ∈ path :: logs, ∀ c, l.getLast? = some c → isBlank c = false := by
    intro l hl c hc
    have := hb l hl c hc
    simp only [isBlank, List.contains_eq_mem, decide_eq_false_iff_not]
    exact this
  have hread : readMeta (some ((logs.map (· ++ ['\n'])).flatten)) = logs :=
    C51_roundtrip logs (fun l hl => h l (by simp [hl])) (fun l hl => hb' l (by simp [hl]))
  obtain ⟨kept, hk, ht⟩ := C51_list fs logs path
  have hf := C51_files fs logs path
  unfold trackLogFile
  simp only [hread]
  refine ⟨hf, kept, by rw [hk]; rfl, ?_, ht⟩
  rw [hk]
  have hm : ∀ l ∈ kept ++ [path], l ∈ path :: logs := by
    intro l hl
    rcases List.mem_append.1 hl with hl | hl
    · exact List.mem_cons_of_mem _ (ht.1.subset hl)
    · rw [List.mem_singleton.1 hl]; simp
  exact C51_roundtrip _ (fun l hl => h l (hm l hl)) (fun l hl => hb' l (hm l hl))

/-- A young file, an old file and a vanished one, the old one twice. -/
example :
    let fs : Fs := fun p => if p = "young".toList then ⟨true, .age 172800, true⟩
      else if p = "old".toList then ⟨true, .age 172801, true⟩ else ⟨false, .missing, false⟩
    (track fs ["old".toList, "gone".toList, "young".toList, "old".toList] "new".toList).2 =
      ["young".toList, "old".toList, "new".toList] := by decide +kernel

end Nxt.Props
