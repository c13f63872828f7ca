{
 "C76": {
  "note": "The property is false for every input: both methods raise.",
  "status": "partial"
 },
 "C95": {
  "status": "proved"
 },
 "C96": {
  "status": "proved"
 },
 "C100": {
  "status": "proved"
 },
 "C105": {
  "status": "proved"
 },
 "C114": {
  "status": "proved"
 },
 "C118": {
  "status": "proved",
  "note": "The claim is about real matrices and is proved for all of them; C118_complex_fails records that the same count is wrong for complex matrices. LAPACK's documented algorithm in exact arithmetic, any legal pivot choice."
 },
 "C122": {
  "status": "proved",
  "note": "Proved for exactly the cases the statement names; C122_even_fails and C122_wrong_fails record that it is false outside them (even n, even k >= 4)."
 },
 "C125": {
  "status": "proved",
  "note": "Proved for exactly the cases the statement names; C125_even_fails records that it is false for equally many coefficients of an even number."
 },
 "C133": {
  "status": "proved"
 },
 "C127": {
  "status": "proved",
  "note": "The last sentence of the statement is C127_large_fails."
 },
 "C126": {
  "note": "Hypothesis SecFits: exact multiplication matrices, see C41; C127_large_fails shows that it cannot be dropped."
 },
 "C23": {
  "note": "The property is false in general: C23_lengthens."
 },
 "C25": {
  "note": "The property is false in general: C25_mismatch_accepted."
 },
 "C26": {
  "note": "The property is false in general: C26_deepcopy_hscale_lost."
 },
 "C29": {
  "note": "The property is false in general: C29_reports_outside."
 },
 "C32": {
  "note": "The property is false in general: C32_prolong_coeffs_wrong_length."
 },
 "C57": {
  "note": "The property is false in general: C57_counterexample_single, C57_counterexample_type1."
 },
 "C59": {
  "note": "The property is false in general: C59_evaluation_mutates."
 },
 "C131": {
  "note": "The only exception is an eigenvalue whose QZ weight is not larger than the tolerance, which eigs drops; for tolerance zero nothing is missing (C131_every_eigenvalue)."
 },
 "C101": {
  "note": "Missing: eigenvalues whose QZ weight is not larger than the tolerance are dropped by eigs."
 },
 "C142": {
  "status": "proved",
  "note": "Hypothesis Ide.Fits: exact multiplication matrices, see C41. The last sentence of the statement is C142_initial_singular."
 }
}