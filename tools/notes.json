{
 "C33": {
  "note": "Proved for every honeycomb EM3_v2 circuit (c33_ancilla). The general claim about every circuit given to noisy_circuit is false of the code; c33_general_false is the machine-checked counterexample."
 },
 "C36": {
  "status": "partial",
  "note": "The property as stated in the code's comment is false of the code: networkx add_edge overwrites, so the last error wins (c36_first_kept_false is the counterexample). c36_kept_partial states what holds instead; see also C63."
 },
 "C46": {
  "note": "Proved with the proviso of the statement; c46_general_false shows that it is needed (a max_batch and min_shots above max_shots exceed the budget)."
 },
 "C47": {
  "note": "c47_min_shots_false records that min_shots is not a lower bound when max_batch is smaller, contrary to the docstring; c47_zero_min_shots that min_shots = 0 raises."
 },
 "C49": {
  "status": "partial",
  "note": "False of the code at one crash point: between the truncation by open('w') and the header (c49_header_window_false); the next run then writes no header and reading finds no data. Proved for every other crash point and any number of restarts. Writes are atomic in the model; c49_torn_row_false shows what a torn write does."
 }
}