import Verif.Model.Remote
import Verif.Spec.Remote
import Verif.Lemmas.Names
/-!
# Lemmas about receiving
-/
namespace Nxt.Remote
open Spec

/-- No segment is empty: an empty receive means the peer closed the connection. -/
def Live (segs : List (List Nat)) : Prop := ∀ s ∈ segs, s ≠ []

/-- `s'` is what is left of `segs` after `n` bytes. -/
structure Rest (n : Nat) (segs s' : List (List Nat)) : Prop where
  live : Live s'
  ends : ∀ b, 0 < b → (SegmentEnd s' b ↔ SegmentEnd segs (n + b))

theorem Rest.refl {segs} (h : Live segs) : Rest 0 segs segs := ⟨h, fun b _ => by rw [Nat.zero_add]⟩

theorem Rest.trans {n m a b c} (h1 : Rest n a b) (h2 : Rest m b c) : Rest (n + m) a c :=
  ⟨h2.live, fun x hx => by
    rw [h2.ends x hx, h1.ends (m + x) (by omega), Nat.add_assoc]⟩

theorem recv_spec (n : Nat) (hn : 0 < n) (segs : List (List Nat)) (h : Live segs) :
    (recv n segs).1 ++ (recv n segs).2.flatten = segs.flatten ∧ (recv n segs).1.length ≤ n ∧
    (segs ≠ [] → (recv n segs).1 ≠ []) ∧ Rest (recv n segs).1.length segs (recv n segs).2 := by
  cases segs with
  | nil => exact ⟨rfl, Nat.zero_le _, fun h => absurd rfl h, Rest.refl h⟩
  | cons seg rest =>
    simp only [recv]
    have hne : seg ≠ [] := h seg (List.mem_cons_self ..)
    split
    · refine ⟨rfl, by assumption, fun _ => hne, fun s hs => h s (List.mem_cons_of_mem _ hs), ?_⟩
      intro b hb
      constructor
      · rintro ⟨k, rfl⟩
        exact ⟨k + 1, by simp⟩
      · rintro ⟨k, he⟩
        cases k with
        | zero => simp at he; omega
        | succ k => exact ⟨k, by simpa using he⟩
    · rename_i hlt
      have hlt : n < seg.length := Nat.lt_of_not_le hlt
      refine ⟨by simp only [List.flatten_cons]; rw [← List.append_assoc, List.take_append_drop],
        by simp only [List.length_take]; omega, fun _ he => ?_, ?_, ?_⟩
      · have := congrArg List.length he; simp only [List.length_take, List.length_nil] at this; omega
      · intro s hs
        rcases List.mem_cons.1 hs with rfl | hs
        · intro he
          have := congrArg List.length he
          simp only [List.length_drop, List.length_nil] at this; omega
        · exact h s (List.mem_cons_of_mem _ hs)
      · intro b hb
        constructor
        · rintro ⟨k, rfl⟩
          cases k with
          | zero => simp at hb
          | succ k =>
            refine ⟨k + 1, ?_⟩
            simp only [List.take_succ_cons, List.flatten_cons, List.length_append, List.length_take,
              List.length_drop]
            omega
        · rintro ⟨k, he⟩
          cases k with
          | zero => simp at he; omega
          | succ k =>
            refine ⟨k + 1, ?_⟩
            simp only [List.take_succ_cons, List.flatten_cons, List.length_append, List.length_take,
              List.length_drop] at he ⊢
            omega

theorem recv_zero (segs : List (List Nat)) (h : Live segs) : recv 0 segs = ([], segs) := by
  cases segs with
  | nil => rfl
  | cons seg rest =>
    have : seg ≠ [] := h seg (List.mem_cons_self ..)
    simp only [recv]
    rw [if_neg (by cases seg with | nil => exact absurd rfl this | cons => simp)]
    rfl

/-- Enough bytes: the body is read. -/
theorem readBody_spec (slen fuel : Nat) (chunk need tail : List Nat) (segs : List (List Nat))
    (h : Live segs) (hf : segs.flatten = need ++ tail) (hl : chunk.length + need.length = slen)
    (hfu : need.length < fuel) :
    ∃ s', readBody slen fuel chunk segs = some (chunk ++ need, s') ∧ s'.flatten = tail ∧
      Rest need.length segs s' := by
  induction fuel generalizing chunk need segs with
  | zero => omega
  | succ fuel ih =>
    unfold readBody
    by_cases hc : chunk.length < slen
    · rw [if_pos hc]
      have hsub : slen - chunk.length = need.length := by omega
      have hn0 : 0 < need.length := by omega
      obtain ⟨e1, e2, e3, e4⟩ := recv_spec need.length hn0 segs h
      simp only [hsub]
      cases hr : recv need.length segs with
      | mk got s1 =>
        rw [hr] at e1 e2 e3 e4
        simp only at e1 e2 e3 e4 ⊢
        have hne : segs ≠ [] := by
          intro he; subst he
          simp only [List.flatten_nil] at hf
          have := congrArg List.length hf
          simp only [List.length_nil, List.length_append] at this; omega
        have hg := e3 hne
        have hg1 : 0 < got.length := List.length_pos_iff.2 hg
        -- the received bytes are the first of the needed ones
        have hgot : got = need.take got.length ∧ s1.flatten = need.drop got.length ++ tail := by
          rw [hf] at e1
          have := List.append_eq_append_iff.1 e1
          have htk : got = need.take got.length := by
            have := congrArg (List.take got.length) e1
            rw [List.take_left, List.take_append_of_le_length e2] at this
            exact this
          refine ⟨htk, ?_⟩
          have := congrArg (List.drop got.length) e1
          rw [List.drop_left, List.drop_append_of_le_length e2] at this
          exact this
        obtain ⟨s', r1, r2, r3⟩ := ih (chunk ++ got) (need.drop got.length) s1 e4.live hgot.2
          (by simp only [List.length_append, List.length_drop]; omega)
          (by simp only [List.length_drop]; omega)
        refine ⟨s', ?_, r2, ?_⟩
        · rw [r1, List.append_assoc]
          congr 3
          conv => lhs; rw [hgot.1]
          rw [List.length_take, Nat.min_eq_left e2, List.take_append_drop]
        · have := e4.trans r3
          rwa [List.length_drop, Nat.add_sub_cancel' e2] at this
    · rw [if_neg hc]
      have : need = [] := List.length_eq_zero_iff.1 (by omega)
      subst this
      exact ⟨segs, by simp, by simpa using hf, Rest.refl h⟩

/-- Too few bytes: the loop never ends. -/
theorem readBody_short (slen fuel : Nat) (chunk : List Nat) (segs : List (List Nat)) (h : Live segs)
    (hl : chunk.length + segs.flatten.length < slen) : readBody slen fuel chunk segs = none := by
  induction fuel generalizing chunk segs with
  | zero => rfl
  | succ fuel ih =>
    unfold readBody
    rw [if_pos (by omega)]
    obtain ⟨e1, e2, e3, e4⟩ := recv_spec (slen - chunk.length) (by omega) segs h
    generalize hrv : recv (slen - chunk.length) segs = p at *
    obtain ⟨more, s1⟩ := p
    simp only at e1 e4 ⊢
    apply ih _ _ e4.live
    have := congrArg List.length e1
    rw [List.length_append] at this ⊢
    omega

theorem readBody_mono {slen fuel : Nat} {chunk : List Nat} {segs : List (List Nat)} {x}
    (h : readBody slen fuel chunk segs = some x) (k : Nat) : readBody slen (fuel + k) chunk segs = some x := by
  induction fuel generalizing chunk segs with
  | zero => cases h
  | succ fuel ih =>
    rw [Nat.succ_add]
    unfold readBody at h ⊢
    split
    · rename_i hc
      rw [if_pos hc] at h
      exact ih h
    · rename_i hc
      rw [if_neg hc] at h
      exact h

theorem handle_mono {fuel : Nat} {segs : List (List Nat)} {x}
    (h : handle fuel segs = some x) (k : Nat) : handle (fuel + k) segs = some x := by
  induction fuel generalizing segs x with
  | zero => cases h
  | succ fuel ih =>
    rw [Nat.succ_add]
    unfold handle at h ⊢
    simp only at h ⊢
    split
    · rename_i hc
      rw [if_pos hc] at h
      exact h
    · rename_i hc
      rw [if_neg hc] at h
      cases hb : readBody (unpack (recv 4 segs).1) (fuel + 1)
          (recv (unpack (recv 4 segs).1) (recv 4 segs).2).1
          (recv (unpack (recv 4 segs).1) (recv 4 segs).2).2 with
      | none => rw [hb] at h; cases h
      | some p =>
        have := readBody_mono hb k
        rw [Nat.succ_add] at this
        rw [Nat.succ_eq_add_one] at this
        rw [this]
        rw [hb] at h
        simp only at h ⊢
        cases hh : handle fuel p.2 with
        | none => rw [hh] at h; cases h
        | some rest => rw [hh] at h; rw [ih hh]; exact h

theorem be32_length (n : Nat) : (be32 n).length = 4 := rfl

theorem unpack_be32 (n : Nat) (h : n < 4294967296) : unpack (be32 n) = n := by
  simp only [unpack, be32, List.foldl_cons, List.foldl_nil]
  omega

/-- Receiving a header which is not split. -/
theorem recv_header (hd tail : List Nat) (hl : hd.length = 4) (segs : List (List Nat)) (h : Live segs)
    (hf : segs.flatten = hd ++ tail) (hw : ∀ b, SegmentEnd segs b → ¬ (0 < b ∧ b < 4)) :
    ∃ s', recv 4 segs = (hd, s') ∧ s'.flatten = tail ∧ Rest 4 segs s' := by
  obtain ⟨e1, e2, e3, e4⟩ := recv_spec 4 (by omega) segs h
  cases segs with
  | nil =>
    have := congrArg List.length hf
    simp only [List.flatten_nil, List.length_nil, List.length_append] at this; omega
  | cons seg rest =>
    have hpos : 0 < seg.length := List.length_pos_iff.2 (h seg (List.mem_cons_self ..))
    have h4 : ¬ seg.length < 4 := fun hlt => hw seg.length ⟨1, by simp⟩ ⟨hpos, hlt⟩
    have hlen : (recv 4 (seg :: rest)).1.length = 4 := by
      simp only [recv]
      split
      · simp only; omega
      · simp only [List.length_take]; omega
    cases hr : recv 4 (seg :: rest) with
    | mk got s1 =>
      rw [hr] at e1 e2 e3 e4 hlen
      simp only at e1 e4 hlen
      rw [hf] at e1
      obtain ⟨rfl, rfl⟩ := List.append_inj e1 (by omega)
      rw [hlen] at e4
      exact ⟨s1, rfl, rfl, e4⟩

/-- One frame. -/
theorem handle_frame (r tail : List Nat) (hr : r.length < 4294967296) (segs : List (List Nat))
    (h : Live segs) (hf : segs.flatten = be32 r.length ++ r ++ tail)
    (hw : ∀ b, SegmentEnd segs b → ¬ (0 < b ∧ b < 4)) :
    ∃ s', s'.flatten = tail ∧ Rest (4 + r.length) segs s' ∧
      ∀ fuel, r.length ≤ fuel → handle (fuel + 1) segs = (handle fuel s').map (r :: ·) := by
  rw [List.append_assoc] at hf
  obtain ⟨s1, h1, f1, r1⟩ := recv_header (be32 r.length) (r ++ tail) rfl segs h hf hw
  by_cases h0 : r.length = 0
  · have hr0 : r = [] := List.length_eq_zero_iff.1 h0
    subst hr0
    refine ⟨s1, by simpa using f1, r1, fun fuel _ => ?_⟩
    rw [handle]
    have hu : unpack (be32 ([] : List Nat).length) = 0 := rfl
    simp only [h1, be32_length, Nat.lt_irrefl, if_false, hu]
    rw [recv_zero s1 r1.live]
    simp only [readBody, List.length_nil, Nat.lt_irrefl, if_false]
    cases handle fuel s1 <;> rfl
  · obtain ⟨e1, e2, e3, e4⟩ := recv_spec r.length (by omega) s1 r1.live
    cases hg : recv r.length s1 with
    | mk got s2 =>
      rw [hg] at e1 e2 e3 e4
      simp only at e1 e2 e3 e4
      rw [f1] at e1
      have htk : got = r.take got.length := by
        have := congrArg (List.take got.length) e1
        rwa [List.take_left, List.take_append_of_le_length e2] at this
      have hdr : s2.flatten = r.drop got.length ++ tail := by
        have := congrArg (List.drop got.length) e1
        rwa [List.drop_left, List.drop_append_of_le_length e2] at this
      have key : ∃ s3, readBody r.length (r.length + 1) got s2 = some (r, s3) ∧ s3.flatten = tail ∧
          Rest (r.drop got.length).length s2 s3 := by
        obtain ⟨s3, q1, q2, q3⟩ := readBody_spec r.length (r.length + 1) got (r.drop got.length) tail s2 e4.live hdr
          (by simp only [List.length_drop]; omega) (by simp only [List.length_drop]; omega)
        refine ⟨s3, ?_, q2, q3⟩
        rw [q1]
        congr 2
        conv => lhs; rw [htk]
        rw [List.length_take, Nat.min_eq_left e2, List.take_append_drop]
      obtain ⟨s3, k1, k2, k3⟩ := key
      refine ⟨s3, k2, ?_, fun fuel hfu => ?_⟩
      · have := r1.trans (e4.trans k3)
        rwa [List.length_drop, Nat.add_sub_cancel' e2] at this
      · have hb := readBody_mono k1 (fuel - r.length)
        rw [show r.length + 1 + (fuel - r.length) = fuel + 1 by omega] at hb
        rw [handle]
        simp only [h1, be32_length, Nat.lt_irrefl, if_false, unpack_be32 _ hr, hg, hb]
        cases handle fuel s3 <;> rfl

theorem frames_append (a b : List (List Nat)) : frames (a ++ b) = frames a ++ frames b := by
  induction a with
  | nil => rfl
  | cons r rs ih => simp [frames, ih]

/-- A run of frames with whole headers. -/
theorem handle_frames (rs : List (List Nat)) (tail : List Nat) (hr : ∀ r ∈ rs, r.length < 4294967296)
    (segs : List (List Nat)) (h : Live segs) (hf : segs.flatten = frames rs ++ tail)
    (hw : HeadersWhole rs segs) :
    ∃ s', s'.flatten = tail ∧ Rest (frames rs).length segs s' ∧
      ∀ fuel, (frames rs).length ≤ fuel → handle (fuel + rs.length) segs = (handle fuel s').map (rs ++ ·) := by
  induction rs generalizing segs with
  | nil => exact ⟨segs, by simpa [frames] using hf, Rest.refl h, fun fuel _ => by simp⟩
  | cons r rs ih =>
    have hf' : segs.flatten = be32 r.length ++ r ++ (frames rs ++ tail) := by
      rw [hf, frames, List.append_assoc]
    obtain ⟨s1, f1, r1, g1⟩ := handle_frame r (frames rs ++ tail) (hr r (List.mem_cons_self ..)) segs h hf'
      (fun b hb hlt => hw 0 b ⟨[], r, rs, rfl, rfl⟩ hb (by omega))
    have hlen : (frames (r :: rs)).length = 4 + r.length + (frames rs).length := by
      simp [frames, be32_length]; omega
    obtain ⟨s2, f2, r2, g2⟩ := ih (fun r hr' => hr r (List.mem_cons_of_mem _ hr')) s1 r1.live f1 (by
      rintro o b ⟨A, q, B, rfl, rfl⟩ hb hlt
      refine hw _ (4 + r.length + b) ⟨r :: A, q, B, rfl, rfl⟩ ((r1.ends b (by omega)).1 hb) ?_
      simp only [frames, List.length_append, be32_length]; omega)
    refine ⟨s2, f2, ?_, fun fuel hfu => ?_⟩
    · rw [hlen]; exact r1.trans r2
    · rw [List.length_cons, ← Nat.add_assoc, g1 _ (by omega), g2 _ (by omega), Option.map_map]
      rfl


end Nxt.Remote
